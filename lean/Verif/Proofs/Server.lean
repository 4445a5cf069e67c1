import Verif.Spec.Server
import Mathlib.Data.List.Basic
import Mathlib.Tactic.Ring
import Mathlib.Data.List.Nodup
import Mathlib.Algebra.Order.BigOperators.Group.List

/-! # Lemmas about the server -/

set_option linter.unusedSectionVars false

namespace DD.Srv

variable {Name R D : Type*} [DecidableEq Name] [DecidableEq D] {w : World Name R D}

/-! ## Maps -/

theorem foldl_traces_off (exports : List Name) (m i : Nat) (traces : Name → Option (Nat × Nat × Nat)) (nm : Name) (h : nm ∉ exports) :
    (exports.zipIdx i).foldl (fun (traces : Name → Option (Nat × Nat × Nat)) (e : Name × Nat) => Function.update traces e.1 (some (m, e.2, 0))) traces nm = traces nm := by
  induction exports generalizing i traces with
  | nil => rfl
  | cons e es ih =>
    rw [List.zipIdx_cons, List.foldl_cons, ih _ _ (fun hm => h (List.mem_cons_of_mem _ hm))]
    exact Function.update_of_ne (fun he => h (by rw [he]; exact List.mem_cons_self)) _ _

theorem foldl_traces_on (exports : List Name) (hd : exports.Nodup) (m i k : Nat) (traces : Name → Option (Nat × Nat × Nat)) (nm : Name) (h : exports[k]? = some nm) :
    (exports.zipIdx i).foldl (fun (traces : Name → Option (Nat × Nat × Nat)) (e : Name × Nat) => Function.update traces e.1 (some (m, e.2, 0))) traces nm = some (m, i + k, 0) := by
  induction exports generalizing i k traces with
  | nil => simp at h
  | cons e es ih =>
    rw [List.zipIdx_cons, List.foldl_cons]
    rw [List.nodup_cons] at hd
    cases k with
    | zero =>
      simp only [List.getElem?_cons_zero, Option.some.injEq] at h
      subst h
      rw [foldl_traces_off _ _ _ _ _ hd.1, Function.update_self]
      rfl
    | succ k =>
      simp only [List.getElem?_cons_succ] at h
      rw [ih hd.2 _ _ _ h]
      congr 3
      omega

theorem foldl_importers (imports : List Name) (importers : Name → Nat) (nm : Name) :
    imports.foldl (fun importers t => Function.update importers t (importers t + 1)) importers nm = importers nm + imports.count nm := by
  induction imports generalizing importers with
  | nil => rfl
  | cons t ts ih =>
    rw [List.foldl_cons, ih, List.count_cons]
    by_cases h : t = nm
    · subst h
      simp
      omega
    · rw [Function.update_of_ne (Ne.symm h)]
      simp [h]

theorem foldl_importers_sub (imports : List Name) (importers : Name → Nat) (nm : Name) :
    imports.foldl (fun importers t => Function.update importers t (importers t - 1)) importers nm = importers nm - imports.count nm := by
  induction imports generalizing importers with
  | nil => rfl
  | cons t ts ih =>
    rw [List.foldl_cons, ih, List.count_cons]
    by_cases h : t = nm
    · subst h
      simp
      omega
    · rw [Function.update_of_ne (Ne.symm h)]
      simp [h]

theorem foldl_none (exports : List Name) (traces : Name → Option (Nat × Nat × Nat)) (nm : Name) :
    exports.foldl (fun traces e => Function.update traces e none) traces nm = if nm ∈ exports then none else traces nm := by
  induction exports generalizing traces with
  | nil => rfl
  | cons t ts ih =>
    rw [List.foldl_cons, ih]
    by_cases h : nm = t
    · subst h
      simp
    · rw [Function.update_of_ne h]
      simp [h]

theorem lookup_some_mem {α β : Type*} [DecidableEq α] {l : List (α × β)} {a : α} {b : β} (h : l.lookup a = some b) : (a, b) ∈ l := by
  induction l with
  | nil => cases h
  | cons x l ih =>
    rw [List.lookup_cons] at h
    split at h
    · next he =>
      rw [eq_of_beq he]
      cases h
      exact List.mem_cons_self
    · exact List.mem_cons_of_mem _ (ih h)

theorem lookup_none_iff {α β : Type*} [DecidableEq α] {l : List (α × β)} {a : α} : l.lookup a = none ↔ ∀ b, (a, b) ∉ l := by
  induction l with
  | nil => simp
  | cons x l ih =>
    rw [List.lookup_cons]
    obtain ⟨y, z⟩ := x
    by_cases he : a = y
    · subst he
      simp
      exact ⟨z, fun h => absurd rfl h⟩
    · rw [beq_eq_false_iff_ne.2 he]
      simp [he, ih]

/-- The names of the traces that a dataflow reads. -/
def readName : FlowIn Name D → Option Name
  | .read nm _ _ _ => some nm
  | .input _ _ => none

/-- The updates of the clock. -/
def clockUps (w : World Name R D) (start : Nat) : Nat → List (D × Nat × Int)
  | 0 => [(w.clockRow start, start, 1)]
  | n + 1 => clockUps w start n ++ [(w.clockRow (start + n), start + n + 1, -1)] ++ [(w.clockRow (start + n + 1), start + n + 1, 1)]

/-- The imports of a dataflow are those of a program. -/
structure Shape (w : World Name R D) (it : Item Name D) (ins : List (FlowIn Name D)) : Prop where
  len : ins.length = it.prog.imports.length
  inp : ∀ (j n : Nat), it.prog.imports[j]? = some (.input n) → ∃ time, ins[j]? = some (.input time ((it.fed.filter fun u => u.1 = n).map fun u => u.2))
  tr : ∀ (j : Nat) (m : Name), it.prog.imports[j]? = some (.trace m) → ∃ id k since, ins[j]? = some (.read (w.canon m) id k since)

/-- What a program of the server is. -/
def Kind (w : World Name R D) (items : List (Name × Item Name D)) (epoch start : Nat) (x : Name × Installed Name) (flow : Flow Name D) : Prop :=
  match x.2.origin with
  | .program => w.parse x.1 = none ∧ x.1 ≠ w.clock ∧ ∃ it, (x.1, it) ∈ items ∧ x.2.exports = it.prog.exports ∧ flow.run = it.prog.run ∧ Shape w it flow.ins ∧ x.2.inputs = handlesOf it.prog.imports ∧ x.2.imports = importNames w it.prog.imports
  | .generated => x.2.exports = [x.1] ∧ x.2.inputs = [(0, 0)] ∧ x.1 ≠ w.clock ∧ flow.run = id ∧ ∃ r time, w.parse x.1 = some r ∧ flow.ins = [.input time ((w.rows r).map fun d => (d, 0, 1))]
  | .clock => x.1 = w.clock ∧ x.2.exports = [x.1] ∧ x.2.inputs = [(0, 0)] ∧ flow.run = id ∧ start ≤ epoch ∧ ∃ time, flow.ins = [.input time (clockUps w start (epoch - start))]

/-- What is true of a program of the server. -/
structure Good (w : World Name R D) (s : Server Name D) (items : List (Name × Item Name D)) (start : Nat) (x : Name × Installed Name) (flow : Flow Name D) : Prop where
  names : x.2.imports = flow.ins.filterMap readName
  reads : ∀ nm id k since, FlowIn.read nm id k since ∈ flow.ins → id < x.2.id ∧ since ≤ s.epoch - 1 ∧ ∃ since', s.traces nm = some (id, k, since')
  inputs : ∀ n j, (n, j) ∈ x.2.inputs → ∃ ups, flow.ins[j]? = some (.input s.epoch ups)
  exports : x.2.exports.Nodup
  kind : Kind w items s.epoch start x flow

/-- What is true of the states of the server. -/
structure Inv (w : World Name R D) (s : Server Name D) (items : List (Name × Item Name D)) (start : Nat) : Prop where
  keys : (s.programs.map Prod.fst).Nodup
  ids : ∀ x ∈ s.programs, ∀ y ∈ s.programs, x.2.id = y.2.id → x = y
  flow : ∀ x ∈ s.programs, ∃ flow, s.flows[x.2.id]? = some (some flow) ∧ Good w s items start x flow
  traces : ∀ nm id k since, s.traces nm = some (id, k, since) → since ≤ s.epoch - 1 ∧ ∃ x ∈ s.programs, x.2.id = id ∧ x.2.exports[k]? = some nm
  exports : ∀ x ∈ s.programs, ∀ (k : Nat) nm, x.2.exports[k]? = some nm → ∃ since, s.traces nm = some (x.2.id, k, since)
  count : ∀ nm, s.importers nm = (s.programs.map fun x => x.2.imports.count nm).sum
  progs : ∀ q it, (q, it) ∈ items → ∃ p, (q, p) ∈ s.programs ∧ p.origin = .program
  itemsOk : ∀ q it, (q, it) ∈ items → it.prog.Ok
  itemsKeys : (items.map Prod.fst).Nodup
  started : start ≤ s.epoch
  owned : ∀ (id : Nat) flow, s.flows[id]? = some (some flow) → ∃ x ∈ s.programs, x.2.id = id

theorem Inv.program_eq {s : Server Name D} {items : List (Name × Item Name D)} {start : Nat} (hi : Inv w s items start) {q : Name} {p : Installed Name} (h : (q, p) ∈ s.programs) : s.program q = some p := by
  cases hl : s.program q with
  | none => exact absurd h (lookup_none_iff.1 hl p)
  | some p' =>
    have h' := lookup_some_mem hl
    have := List.inj_on_of_nodup_map hi.keys h h' rfl
    rw [(Prod.mk.inj this).2]

theorem Inv.lt {s : Server Name D} {items : List (Name × Item Name D)} {start : Nat} (hi : Inv w s items start) {x : Name × Installed Name} (h : x ∈ s.programs) : x.2.id < s.flows.length := by
  obtain ⟨flow, hf, -⟩ := hi.flow x h
  exact (List.getElem?_eq_some_iff.1 hf).1

/-- What must be true of what is published. -/
structure New (w : World Name R D) (s : Server Name D) (items' : List (Name × Item Name D)) (start : Nat) (name : Name) (flow : Flow Name D) (inputs : List (Nat × Nat)) (imports exports : List Name) (origin : Origin) : Prop where
  free : ∀ p, (name, p) ∉ s.programs
  fresh : ∀ e ∈ exports, s.traces e = none
  nodup : exports.Nodup
  names : imports = flow.ins.filterMap readName
  reads : ∀ nm id k since, FlowIn.read nm id k since ∈ flow.ins → s.traces nm = some (id, k, since)
  sessions : ∀ n j, (n, j) ∈ inputs → ∃ ups, flow.ins[j]? = some (.input s.epoch ups)
  kind : Kind w items' s.epoch start (name, ⟨inputs, imports, exports, s.flows.length, origin⟩) flow

theorem Inv.publish {s : Server Name D} {items items' : List (Name × Item Name D)} {start start' : Nat} (hi : Inv w s items start) {name : Name} {flow : Flow Name D} {inputs : List (Nat × Nat)} {imports exports : List Name} {origin : Origin}
    (hn : New w s items' start' name flow inputs imports exports origin) (hk : ∀ x ∈ s.programs, ∀ flow, Kind w items s.epoch start x flow → Kind w items' s.epoch start' x flow)
    (hit : ∀ q it, (q, it) ∈ items' → (q, it) ∈ items ∨ q = name ∧ origin = .program) (hok : ∀ q it, (q, it) ∈ items' → it.prog.Ok) (hkeys : (items'.map Prod.fst).Nodup) (hst : start' ≤ s.epoch) :
    Inv w (s.publish name flow.ins flow.run inputs imports exports origin) items' start' := by
  have hfil : s.programs.filter (fun q => q.1 ≠ name) = s.programs := by
    rw [List.filter_eq_self]
    intro x hx
    simp only [ne_eq, decide_not, Bool.not_eq_eq_eq_not, Bool.not_true, decide_eq_false_iff_not]
    intro he
    exact hn.free x.2 (he ▸ hx)
  have hprog : (s.publish name flow.ins flow.run inputs imports exports origin).programs = (name, ⟨inputs, imports, exports, s.flows.length, origin⟩) :: s.programs := by
    show insertProgram _ _ _ = _
    rw [insertProgram, hfil]
  have hon : ∀ (k : Nat) nm, exports[k]? = some nm → (s.publish name flow.ins flow.run inputs imports exports origin).traces nm = some (s.flows.length, k, 0) := by
    intro k nm hk
    have := foldl_traces_on exports hn.nodup s.flows.length 0 k s.traces nm hk
    rw [Nat.zero_add] at this
    exact this
  have hoff : ∀ nm, nm ∉ exports → (s.publish name flow.ins flow.run inputs imports exports origin).traces nm = s.traces nm := fun nm hnm => foldl_traces_off _ _ _ _ _ hnm
  have hkeep : ∀ nm x, s.traces nm = some x → (s.publish name flow.ins flow.run inputs imports exports origin).traces nm = some x := by
    intro nm x hx
    rw [hoff nm (fun hm => by rw [hn.fresh nm hm] at hx; cases hx), hx]
  have hflows : (s.publish name flow.ins flow.run inputs imports exports origin).flows = s.flows ++ [some flow] := rfl
  have hep : (s.publish name flow.ins flow.run inputs imports exports origin).epoch = s.epoch := rfl
  refine ⟨?_, ?_, ?_, ?_, ?_, ?_, ?_, hok, hkeys, hst, ?_⟩
  · rw [hprog, List.map_cons, List.nodup_cons]
    refine ⟨fun hm => ?_, hi.keys⟩
    obtain ⟨x, hx, he⟩ := List.mem_map.1 hm
    exact hn.free x.2 (by rw [← show x.1 = name from he]; exact hx)
  · rw [hprog]
    intro x hx y hy he
    rcases List.mem_cons.1 hx with rfl | hx <;> rcases List.mem_cons.1 hy with rfl | hy
    · rfl
    · exact absurd he.symm (Nat.ne_of_lt (hi.lt hy))
    · exact absurd he (Nat.ne_of_lt (hi.lt hx))
    · exact hi.ids x hx y hy he
  · rw [hprog, hflows]
    intro x hx
    rcases List.mem_cons.1 hx with rfl | hx
    · refine ⟨flow, by simp, hn.names, ?_, hn.sessions, hn.nodup, hn.kind⟩
      intro nm id k since hm
      have ht := hn.reads nm id k since hm
      obtain ⟨h1, y, hy, h2, -⟩ := hi.traces nm id k since ht
      exact ⟨h2 ▸ hi.lt hy, h1, since, hkeep _ _ ht⟩
    · obtain ⟨f, hf, hg⟩ := hi.flow x hx
      refine ⟨f, by rw [List.getElem?_append_left (hi.lt hx)]; exact hf, hg.names, ?_, hg.inputs, hg.exports, hk x hx f hg.kind⟩
      intro nm id k since hm
      obtain ⟨h1, h2, s', h3⟩ := hg.reads nm id k since hm
      exact ⟨h1, h2, s', hkeep _ _ h3⟩
  · rw [hprog]
    intro nm id k since ht
    by_cases hm : nm ∈ exports
    · obtain ⟨k', hk'⟩ := List.getElem?_of_mem hm
      rw [hon k' nm hk'] at ht
      cases ht
      exact ⟨Nat.zero_le _, _, List.mem_cons_self, rfl, hk'⟩
    · rw [hoff nm hm] at ht
      obtain ⟨h1, x, hx, h2⟩ := hi.traces nm id k since ht
      exact ⟨h1, x, List.mem_cons_of_mem _ hx, h2⟩
  · rw [hprog]
    intro x hx k nm hk'
    rcases List.mem_cons.1 hx with rfl | hx
    · exact ⟨0, hon k nm hk'⟩
    · obtain ⟨since, ht⟩ := hi.exports x hx k nm hk'
      exact ⟨since, hkeep _ _ ht⟩
  · intro nm
    rw [hprog, List.map_cons, List.sum_cons, ← hi.count nm]
    exact (foldl_importers imports s.importers nm).trans (Nat.add_comm _ _)
  · rw [hprog]
    intro q it hq
    rcases hit q it hq with hq | ⟨rfl, ho⟩
    · obtain ⟨p, hp, h⟩ := hi.progs q it hq
      exact ⟨p, List.mem_cons_of_mem _ hp, h⟩
    · exact ⟨_, List.mem_cons_self, ho⟩
  · rw [hprog, hflows]
    intro id f hf
    by_cases hlt : id < s.flows.length
    · rw [List.getElem?_append_left hlt] at hf
      obtain ⟨x, hx, he⟩ := hi.owned id f hf
      exact ⟨x, List.mem_cons_of_mem _ hx, he⟩
    · have := (List.getElem?_eq_some_iff.1 hf).1
      rw [List.length_append, List.length_singleton] at this
      exact ⟨_, List.mem_cons_self, show s.flows.length = id by omega⟩

/-! ## Lists -/

theorem mapM_some {α β : Type*} {f : α → Option β} {l : List α} {r : List β} (h : l.mapM f = some r) : r.length = l.length ∧ ∀ (j : Nat) a, l[j]? = some a → ∃ b, r[j]? = some b ∧ f a = some b := by
  induction l generalizing r with
  | nil =>
    simp at h
    subst h
    exact ⟨rfl, fun j a ha => by simp at ha⟩
  | cons a l ih =>
    rw [List.mapM_cons] at h
    simp only [Option.pure_def, Option.bind_eq_bind, Option.bind_eq_some_iff, Option.some.injEq] at h
    obtain ⟨b, hb, r', hr, rfl⟩ := h
    obtain ⟨h1, h2⟩ := ih hr
    refine ⟨by simp [h1], fun j a' ha => ?_⟩
    cases j with
    | zero =>
      simp at ha
      subst ha
      exact ⟨b, rfl, hb⟩
    | succ j => exact h2 j a' (by simpa using ha)

theorem mapM_isSome {α β : Type*} {f : α → Option β} {l : List α} (h : ∀ a ∈ l, ∃ b, f a = some b) : ∃ r, l.mapM f = some r := by
  induction l with
  | nil => exact ⟨[], rfl⟩
  | cons a l ih =>
    obtain ⟨b, hb⟩ := h a List.mem_cons_self
    obtain ⟨r, hr⟩ := ih fun a' ha => h a' (List.mem_cons_of_mem _ ha)
    exact ⟨b :: r, by rw [List.mapM_cons, hb, hr]; rfl⟩

theorem mem_handlesOf {imports : List (Src Name)} {n j : Nat} : (n, j) ∈ handlesOf imports ↔ imports[j]? = some (.input n) := by
  unfold handlesOf
  rw [List.mem_reverse, List.mem_filterMap]
  constructor
  · rintro ⟨⟨i, j'⟩, hm, he⟩
    rw [List.mem_zipIdx_iff_getElem?] at hm
    cases i with
    | input n' =>
      simp at he
      obtain ⟨rfl, rfl⟩ := he
      exact hm
    | trace m => simp at he
  · intro h
    exact ⟨(.input n, j), List.mem_zipIdx_iff_getElem?.2 h, rfl⟩

theorem index_unique {α : Type*} {P : α → Bool} {l : List α} (h : (l.filter P).Nodup) {j j' : Nat} {a : α} (hP : P a = true) (h1 : l[j]? = some a) (h2 : l[j']? = some a) : j = j' := by
  induction l generalizing j j' with
  | nil => simp at h1
  | cons b l ih =>
    have key : ∀ i : Nat, b = a → l[i]? = some a → False := by
      intro i hb hm
      subst hb
      rw [List.filter_cons_of_pos hP, List.nodup_cons] at h
      exact h.1 (List.mem_filter.2 ⟨List.mem_of_getElem? hm, hP⟩)
    have hl : (l.filter P).Nodup := by
      rw [List.filter_cons] at h
      split at h
      · exact (List.nodup_cons.1 h).2
      · exact h
    cases j with
    | zero =>
      cases j' with
      | zero => rfl
      | succ j' =>
        simp at h1 h2
        exact (key j' h1 h2).elim
    | succ j =>
      cases j' with
      | zero =>
        simp at h1 h2
        exact (key j h2 h1).elim
      | succ j' =>
        simp at h1 h2
        rw [ih hl h1 h2]

theorem sum_filter {α : Type*} {l : List (Name × α)} (hd : (l.map Prod.fst).Nodup) {x : Name × α} (hx : x ∈ l) (f : Name × α → Nat) :
    (l.map f).sum = f x + ((l.filter fun q => q.1 ≠ x.1).map f).sum := by
  induction l with
  | nil => cases hx
  | cons y l ih =>
    rw [List.map_cons, List.nodup_cons] at hd
    rcases List.mem_cons.1 hx with rfl | hx
    · have : l.filter (fun q => q.1 ≠ x.1) = l := by
        rw [List.filter_eq_self]
        intro q hq
        simp only [ne_eq, decide_not, Bool.not_eq_eq_eq_not, Bool.not_true, decide_eq_false_iff_not]
        intro he
        exact hd.1 (List.mem_map.2 ⟨q, hq, he⟩)
      rw [List.filter_cons_of_neg (by simp), this]
      simp
    · have hne : y.1 ≠ x.1 := fun he => hd.1 (List.mem_map.2 ⟨x, hx, he.symm⟩)
      rw [List.filter_cons_of_pos (by simpa using hne)]
      simp only [List.map_cons, List.sum_cons]
      rw [ih hd.2 hx]
      omega

/-! ## Installing -/

/-- A name of a source. -/
def Source (w : World Name R D) (nm : Name) : Prop := nm = w.clock ∨ (w.parse nm).isSome

theorem Inv.not_program {s : Server Name D} {items : List (Name × Item Name D)} {start : Nat} (hi : Inv w s items start) {key : Name} (hk : Source w key) (ht : s.traces key = none) (p : Installed Name) : (key, p) ∉ s.programs := by
  intro hp
  obtain ⟨flow, -, hg⟩ := hi.flow _ hp
  have hkd := hg.kind
  have hex : p.exports = [key] → False := by
    intro he
    obtain ⟨since, h⟩ := hi.exports _ hp 0 key (by simp [he])
    rw [ht] at h
    cases h
  unfold Kind at hkd
  cases ho : p.origin with
  | program =>
    simp only [ho] at hkd
    rcases hk with hk | hk
    · exact hkd.2.1 hk
    · rw [hkd.1] at hk
      cases hk
  | generated =>
    simp only [ho] at hkd
    exact hex hkd.1
  | clock =>
    simp only [ho] at hkd
    exact hex hkd.2.1

theorem Inv.installGenerated {s : Server Name D} {items : List (Name × Item Name D)} {start : Nat} (hi : Inv w s items start) {key : Name} {r : R} (hc : key ≠ w.clock) (hr : w.parse key = some r) (ht : s.traces key = none) : Inv w (s.installGenerated w key r) items start := by
  refine hi.publish (flow := ⟨[.input s.epoch ((w.rows r).map fun d => (d, 0, 1))], id⟩) (items' := items) (start' := start) ⟨hi.not_program (.inr (by rw [hr]; rfl)) ht, ?_, ?_, ?_, ?_, ?_, ?_⟩ (fun _ _ _ h => h) (fun _ _ h => .inl h) hi.itemsOk hi.itemsKeys hi.started
  · intro e he
    rw [List.mem_singleton.1 he, ht]
  · simp
  · rfl
  · intro nm id k since hm
    simp at hm
  · intro n j hm
    simp at hm
    obtain ⟨rfl, rfl⟩ := hm
    exact ⟨_, rfl⟩
  · exact ⟨rfl, rfl, hc, rfl, r, _, hr, rfl⟩

theorem Inv.installClock {s : Server Name D} {items : List (Name × Item Name D)} {start : Nat} (hi : Inv w s items start) (ht : s.traces w.clock = none) : Inv w (s.installClock w) items s.epoch := by
  refine hi.publish (flow := ⟨[.input s.epoch [(w.clockRow s.epoch, s.epoch, 1)]], id⟩) (items' := items) (start' := s.epoch) ⟨hi.not_program (.inl rfl) ht, ?_, ?_, ?_, ?_, ?_, ?_⟩ ?_ (fun _ _ h => .inl h) hi.itemsOk hi.itemsKeys le_rfl
  · intro e he
    rw [List.mem_singleton.1 he, ht]
  · simp
  · rfl
  · intro nm id k since hm
    simp at hm
  · intro n j hm
    simp at hm
    obtain ⟨rfl, rfl⟩ := hm
    exact ⟨_, rfl⟩
  · exact ⟨rfl, rfl, rfl, rfl, le_rfl, s.epoch, by rw [Nat.sub_self]; rfl⟩
  · intro x hx flow hk
    unfold Kind at hk ⊢
    cases ho : x.2.origin with
    | program => simpa only [ho] using hk
    | generated => simpa only [ho] using hk
    | clock =>
      simp only [ho] at hk
      exact (hi.not_program (.inl rfl) ht x.2 (by rw [← hk.1]; exact hx)).elim

/-- What the installation of sources does. -/
structure Sourced (w : World Name R D) (s : Server Name D) (items : List (Name × Item Name D)) (imports : List (Src Name)) (x : Server Name D × Bool) : Prop where
  inv : ∃ start, Inv w x.1 items start
  epoch : x.1.epoch = s.epoch
  keep : ∀ nm v, s.traces nm = some v → x.1.traces nm = some v
  only : ∀ nm v, x.1.traces nm = some v → s.traces nm = some v ∨ Source w nm
  progs : ∀ q p, (q, p) ∈ x.1.programs → (q, p) ∈ s.programs ∨ Source w q
  ok : x.2 = true → ∀ m, Src.trace m ∈ imports → ∃ v, x.1.traces (w.canon m) = some v
  iff : x.2 = true ↔ ∀ m, Src.trace m ∈ imports → (∃ v, s.traces (w.canon m) = some v) ∨ Source w (w.canon m)

theorem publish_source (s : Server Name D) (key : Name) (ht : s.traces key = none) (ins : List (FlowIn Name D)) (run : List (D → Int) → List (D → Int)) (inputs : List (Nat × Nat)) (origin : Origin) :
    (∀ nm v, s.traces nm = some v → (s.publish key ins run inputs [] [key] origin).traces nm = some v) ∧ (∀ nm v, (s.publish key ins run inputs [] [key] origin).traces nm = some v → s.traces nm = some v ∨ nm = key) ∧ (∃ v, (s.publish key ins run inputs [] [key] origin).traces key = some v) ∧
    ∀ q p, (q, p) ∈ (s.publish key ins run inputs [] [key] origin).programs → (q, p) ∈ s.programs ∨ q = key := by
  have htr : (s.publish key ins run inputs [] [key] origin).traces = Function.update s.traces key (some (s.flows.length, 0, 0)) := rfl
  rw [htr]
  refine ⟨?_, ?_, ⟨_, Function.update_self ..⟩, ?_⟩
  · intro nm v hv
    rw [Function.update_of_ne]
    · exact hv
    · rintro rfl
      rw [ht] at hv
      cases hv
  · intro nm v hv
    by_cases h : nm = key
    · exact .inr h
    · rw [Function.update_of_ne h] at hv
      exact .inl hv
  · intro q p hm
    rcases List.mem_cons.1 hm with h | h
    · exact .inr (Prod.mk.inj h).1
    · exact .inl (List.mem_of_mem_filter h)

theorem Inv.installSources {s : Server Name D} {items : List (Name × Item Name D)} {start : Nat} (hi : Inv w s items start) (imports : List (Src Name)) : Sourced w s items imports (s.installSources w imports) := by
  induction imports generalizing s start with
  | nil => exact ⟨⟨start, hi⟩, rfl, fun _ _ h => h, fun _ _ h => .inl h, fun _ _ h => .inl h, fun _ m hm => (by cases hm), iff_of_true rfl fun m hm => (by cases hm)⟩
  | cons i imports ih =>
    cases i with
    | input n =>
      have h := ih hi
      exact ⟨h.inv, h.epoch, h.keep, h.only, h.progs, fun hk m hm => h.ok hk m (by simpa using hm), h.iff.trans ⟨fun h m hm => h m (by simpa using hm), fun h m hm => h m (List.mem_cons_of_mem _ hm)⟩⟩
    | trace t =>
      show Sourced w s items _ (if (s.traces (w.canon t)).isSome then s.installSources w imports else if w.canon t = w.clock then (s.installClock w).installSources w imports else match w.parse (w.canon t) with
      | some r => (s.installGenerated w (w.canon t) r).installSources w imports
      | none => (s, false))
      have step : ∀ (s' : Server Name D) (start' : Nat), Inv w s' items start' → s'.epoch = s.epoch → (∀ nm v, s.traces nm = some v → s'.traces nm = some v) → (∀ nm v, s'.traces nm = some v → s.traces nm = some v ∨ nm = w.canon t) → (∃ v, s'.traces (w.canon t) = some v) →
          (∀ q p, (q, p) ∈ s'.programs → (q, p) ∈ s.programs ∨ q = w.canon t) → Source w (w.canon t) → Sourced w s items (Src.trace t :: imports) (s'.installSources w imports) := by
        intro s' start' hi' he hkeep honly hhas hprogs hsrc
        have h := ih hi'
        refine ⟨h.inv, h.epoch.trans he, fun nm v hv => h.keep nm v (hkeep nm v hv), ?_, ?_, ?_, h.iff.trans ⟨?_, ?_⟩⟩
        · intro nm v hv
          rcases h.only nm v hv with h | h
          · rcases honly nm v h with h | rfl
            · exact .inl h
            · exact .inr hsrc
          · exact .inr h
        · intro q p hp
          rcases h.progs q p hp with h | h
          · rcases hprogs q p h with h | rfl
            · exact .inl h
            · exact .inr hsrc
          · exact .inr h
        · intro hk m hm
          rcases List.mem_cons.1 hm with hm | hm
          · cases hm
            obtain ⟨v, hv⟩ := hhas
            exact ⟨v, h.keep _ _ hv⟩
          · exact h.ok hk m hm
        · intro hall m hm
          rcases List.mem_cons.1 hm with hm | hm
          · cases hm
            exact .inr hsrc
          · rcases hall m hm with ⟨v, hv⟩ | h
            · rcases honly _ v hv with h | h
              · exact .inl ⟨v, h⟩
              · exact .inr (h ▸ hsrc)
            · exact .inr h
        · intro hall m hm
          rcases hall m (List.mem_cons_of_mem _ hm) with ⟨v, hv⟩ | h
          · exact .inl ⟨v, hkeep _ _ hv⟩
          · exact .inr h
      by_cases hs : (s.traces (w.canon t)).isSome
      · rw [if_pos hs]
        obtain ⟨v, hv⟩ := Option.isSome_iff_exists.1 hs
        have h := ih hi
        refine ⟨h.inv, h.epoch, h.keep, h.only, h.progs, ?_, h.iff.trans ⟨?_, fun hall m hm => hall m (List.mem_cons_of_mem _ hm)⟩⟩
        · intro hk m hm
          rcases List.mem_cons.1 hm with hm | hm
          · cases hm
            exact ⟨v, h.keep _ _ hv⟩
          · exact h.ok hk m hm
        · intro hall m hm
          rcases List.mem_cons.1 hm with hm | hm
          · cases hm
            exact .inl ⟨v, hv⟩
          · exact hall m hm
      · rw [if_neg hs]
        have ht : s.traces (w.canon t) = none := by simpa using hs
        by_cases hc : w.canon t = w.clock
        · rw [if_pos hc]
          have hp := publish_source s w.clock (hc ▸ ht) [.input s.epoch [(w.clockRow s.epoch, s.epoch, 1)]] id [(0, 0)] .clock
          rw [← hc] at hp
          refine step _ _ (hi.installClock (hc ▸ ht)) rfl ?_ ?_ ?_ ?_ (.inl hc)
          all_goals unfold Server.installClock; rw [← hc]
          · exact hp.1
          · exact hp.2.1
          · exact hp.2.2.1
          · exact hp.2.2.2
        · rw [if_neg hc]
          cases hr : w.parse (w.canon t) with
          | some r =>
            have hp := publish_source s (w.canon t) ht [.input s.epoch ((w.rows r).map fun d => (d, 0, 1))] id [(0, 0)] .generated
            exact step _ _ (hi.installGenerated hc hr ht) rfl hp.1 hp.2.1 hp.2.2.1 hp.2.2.2 (.inr (by rw [hr]; rfl))
          | none =>
            refine ⟨⟨start, hi⟩, rfl, fun _ _ h => h, fun _ _ h => .inl h, fun _ _ h => .inl h, fun h => (by cases h), iff_of_false (by simp) ?_⟩
            intro hall
            rcases hall t List.mem_cons_self with ⟨v, hv⟩ | h | h
            · rw [ht] at hv
              cases hv
            · exact hc h
            · rw [hr] at h
              cases h

end DD.Srv
