import Verif.Proofs.Server

/-! # Lemmas about the commands of the server -/

set_option linter.unusedSectionVars false

namespace DD.Srv

variable {Name R D : Type*} [DecidableEq Name] [DecidableEq D] {w : World Name R D}

theorem Inv.item_eq {s : Server Name D} {items : List (Name × Item Name D)} {start : Nat} (hi : Inv w s items start) {q : Name} {it it' : Item Name D} (h : (q, it) ∈ items) (h' : (q, it') ∈ items) : it = it' :=
  (Prod.mk.inj (List.inj_on_of_nodup_map hi.itemsKeys h h' rfl)).2

/-- The program of an item. -/
theorem Inv.of_item {s : Server Name D} {items : List (Name × Item Name D)} {start : Nat} (hi : Inv w s items start) {q : Name} {it : Item Name D} (h : (q, it) ∈ items) :
    ∃ p flow, (q, p) ∈ s.programs ∧ p.origin = .program ∧ s.flows[p.id]? = some (some flow) ∧ Good w s items start (q, p) flow ∧ w.parse q = none ∧ q ≠ w.clock ∧ p.exports = it.prog.exports ∧ flow.run = it.prog.run ∧ Shape w it flow.ins ∧ p.inputs = handlesOf it.prog.imports ∧ p.imports = importNames w it.prog.imports := by
  obtain ⟨p, hp, ho⟩ := hi.progs q it h
  obtain ⟨flow, hf, hg⟩ := hi.flow _ hp
  have hk := hg.kind
  unfold Kind at hk
  simp only [ho] at hk
  obtain ⟨h1, h2, it', h3, h4⟩ := hk
  cases hi.item_eq h h3
  exact ⟨p, flow, hp, ho, hf, hg, h1, h2, h4⟩

theorem Inv.published {s : Server Name D} {items : List (Name × Item Name D)} {start : Nat} (hi : Inv w s items start) {nm : Name} (h : Published items nm) : ∃ v, s.traces nm = some v := by
  obtain ⟨⟨q, it⟩, hx, hm⟩ := h
  obtain ⟨p, flow, hp, -, -, -, -, -, he, -⟩ := hi.of_item hx
  obtain ⟨k, hk⟩ := List.getElem?_of_mem hm
  obtain ⟨since, ht⟩ := hi.exports _ hp k nm (by rw [he]; exact hk)
  exact ⟨_, ht⟩

theorem Inv.published_or {s : Server Name D} {items : List (Name × Item Name D)} {start : Nat} (hi : Inv w s items start) {nm : Name} {v : Nat × Nat × Nat} (h : s.traces nm = some v) : Published items nm ∨ Source w nm := by
  obtain ⟨id, k, since⟩ := v
  obtain ⟨-, ⟨q, p⟩, hp, -, hk⟩ := hi.traces nm id k since h
  obtain ⟨flow, -, hg⟩ := hi.flow _ hp
  have hkd := hg.kind
  unfold Kind at hkd
  have one : p.exports = [q] → nm = q := by
    intro he
    have := List.mem_of_getElem? hk
    simpa [he] using this
  cases ho : p.origin with
  | program =>
    simp only [ho] at hkd
    obtain ⟨-, -, it, h3, h4, -⟩ := hkd
    exact .inl ⟨_, h3, h4 ▸ List.mem_of_getElem? hk⟩
  | generated =>
    simp only [ho] at hkd
    obtain ⟨h1, -, -, -, r, -, hr, -⟩ := hkd
    rw [one h1]
    exact .inr (.inr (by rw [hr]; rfl))
  | clock =>
    simp only [ho] at hkd
    rw [one hkd.2.1]
    exact .inr (.inl hkd.1)

/-! ## Installing a program -/

theorem inputsOf_names {s : Server Name D} {imports : List (Src Name)} {ins : List (FlowIn Name D)} (h : s.inputsOf w imports = some ins) : importNames w imports = ins.filterMap readName := by
  induction imports generalizing ins with
  | nil =>
    simp [Server.inputsOf] at h
    subst h
    rfl
  | cons i imports ih =>
    unfold Server.inputsOf at h
    rw [List.mapM_cons] at h
    simp only [Option.pure_def, Option.bind_eq_bind, Option.bind_eq_some_iff, Option.some.injEq] at h
    obtain ⟨b, hb, r, hr, rfl⟩ := h
    have ih := ih hr
    cases i with
    | input n =>
      cases hb
      exact ih
    | trace t =>
      simp only [Option.map_eq_some_iff] at hb
      obtain ⟨x, -, rfl⟩ := hb
      show w.canon t :: importNames w imports = w.canon t :: List.filterMap readName r
      rw [ih]

theorem Inv.install {s : Server Name D} {items : List (Name × Item Name D)} {start : Nat} (hi : Inv w s items start) (name : Name) (prog : Prog Name D) (hok : prog.Ok) (hc : name ≠ w.clock) (hp : w.parse name = none) :
    ∃ s' ok start', s.install w name prog = some (s', ok) ∧ Inv w s' (after w items s.epoch (.install name prog) ok) start' ∧ (ok = true ↔ (∀ it, (name, it) ∉ items) ∧ (s.installSources w prog.imports).2 = true ∧ ∀ e ∈ prog.exports, (s.installSources w prog.imports).1.traces e = none) := by
  have hsrc : ¬ Source w name := by
    rintro (h | h)
    · exact hc h
    · rw [hp] at h
      cases h
  unfold Server.install
  by_cases hn : (s.program name).isSome
  · rw [if_pos hn]
    refine ⟨s, false, start, rfl, hi, iff_of_false (by simp) ?_⟩
    rintro ⟨h, -⟩
    obtain ⟨p, hpr⟩ := Option.isSome_iff_exists.1 hn
    have hm := lookup_some_mem hpr
    obtain ⟨flow, -, hg⟩ := hi.flow _ hm
    have hk := hg.kind
    unfold Kind at hk
    cases ho : p.origin with
    | program =>
      simp only [ho] at hk
      obtain ⟨-, -, it, h3, -⟩ := hk
      exact h it h3
    | generated =>
      simp only [ho] at hk
      obtain ⟨-, -, -, -, r, -, hr, -⟩ := hk
      rw [hp] at hr
      cases hr
    | clock =>
      simp only [ho] at hk
      exact hc hk.1
  · rw [if_neg hn]
    have hfree : ∀ p, (name, p) ∉ s.programs := lookup_none_iff.1 (Option.not_isSome_iff_eq_none.1 hn)
    have hfree' : ∀ it, (name, it) ∉ items := fun it h => by
      obtain ⟨p, h, -⟩ := hi.progs _ _ h
      exact hfree p h
    have hS := hi.installSources (w := w) prog.imports
    generalize s.installSources w prog.imports = x at hS
    obtain ⟨s1, b⟩ := x
    obtain ⟨start1, hi1⟩ := hS.inv
    have hep : s1.epoch = s.epoch := hS.epoch
    simp only
    cases b with
    | false =>
      rw [if_pos rfl]
      exact ⟨s1, false, start1, rfl, hi1, iff_of_false (by simp) (by simp)⟩
    | true =>
      rw [if_neg (by simp)]
      by_cases he : (prog.exports.any fun e => (s1.traces e).isSome) = true
      · rw [if_pos he]
        refine ⟨s1, false, start1, rfl, hi1, iff_of_false (by simp) ?_⟩
        rintro ⟨-, -, h⟩
        obtain ⟨e, hm, h'⟩ := List.any_eq_true.1 he
        rw [h e hm] at h'
        cases h'
      · rw [if_neg he]
        have hfresh : ∀ e ∈ prog.exports, s1.traces e = none := by
          intro e hm
          cases h : s1.traces e with
          | none => rfl
          | some v => exact absurd (List.any_eq_true.2 ⟨e, hm, by rw [h]; rfl⟩) he
        obtain ⟨ins, hins⟩ : ∃ ins, s1.inputsOf w prog.imports = some ins := by
          apply mapM_isSome
          intro i hm
          cases i with
          | input n => exact ⟨_, rfl⟩
          | trace t =>
            obtain ⟨v, hv⟩ := hS.ok rfl t hm
            exact ⟨_, congrArg (Option.map _) hv⟩
        rw [hins]
        obtain ⟨hlen, hat⟩ := mapM_some hins
        have hinp : ∀ (j n : Nat), prog.imports[j]? = some (.input n) → ins[j]? = some (.input s1.epoch []) := by
          intro j n hj
          obtain ⟨b, hb, hbb⟩ := hat j _ hj
          cases hbb
          exact hb
        have htr : ∀ (j : Nat) m, prog.imports[j]? = some (.trace m) → ∃ x, s1.traces (w.canon m) = some x ∧ ins[j]? = some (.read (w.canon m) x.1 x.2.1 x.2.2) := by
          intro j m hj
          obtain ⟨b, hb, hbb⟩ := hat j _ hj
          simp only [Option.map_eq_some_iff] at hbb
          obtain ⟨x, hx, rfl⟩ := hbb
          exact ⟨x, hx, hb⟩
        refine ⟨_, true, start1, rfl, ?_, iff_of_true rfl ⟨hfree', rfl, hfresh⟩⟩
        have hit' : ∀ {q it}, (q, it) ∈ after w items s.epoch (.install name prog) true → (q, it) ∈ items ∨ q = name ∧ it = ⟨prog, []⟩ := by
          intro q it h
          rcases List.mem_cons.1 h with h | h
          · exact .inr (Prod.mk.inj h)
          · exact .inl h
        refine hi1.publish (flow := ⟨ins, prog.run⟩) (items' := after w items s.epoch (.install name prog) true) (start' := start1) ⟨?_, hfresh, hok.exports, inputsOf_names hins, ?_, ?_, ?_⟩ ?_ ?_ ?_ ?_ hi1.started
        · intro p hm
          rcases hS.progs _ _ hm with h | h
          · exact hfree p h
          · exact hsrc h
        · intro nm id k since hm
          obtain ⟨j, hj⟩ := List.getElem?_of_mem hm
          have hlt : j < prog.imports.length := hlen ▸ (List.getElem?_eq_some_iff.1 hj).1
          obtain ⟨i, hii⟩ : ∃ i, prog.imports[j]? = some i := ⟨_, List.getElem?_eq_getElem hlt⟩
          cases i with
          | input n =>
            have h1 := hinp j n hii
            simp only at hj
            rw [h1] at hj
            cases hj
          | trace m =>
            obtain ⟨x, hx, h1⟩ := htr j m hii
            simp only at hj
            rw [h1] at hj
            cases hj
            exact hx
        · intro n j hm
          exact ⟨_, hinp j n (mem_handlesOf.1 hm)⟩
        · refine ⟨hp, hc, ⟨prog, []⟩, List.mem_cons_self, rfl, rfl, ⟨hlen, ?_, ?_⟩, rfl, rfl⟩
          · intro j n hj
            exact ⟨_, hinp j n hj⟩
          · intro j m hj
            obtain ⟨x, -, h⟩ := htr j m hj
            exact ⟨_, _, _, h⟩
        · intro x hx flow hk
          unfold Kind at hk ⊢
          cases ho : x.2.origin with
          | program =>
            simp only [ho] at hk ⊢
            obtain ⟨h1, h2, it, h3, h4⟩ := hk
            exact ⟨h1, h2, it, List.mem_cons_of_mem _ h3, h4⟩
          | generated => simpa only [ho] using hk
          | clock => simpa only [ho] using hk
        · intro q it h
          rcases hit' h with h | ⟨h, -⟩
          · exact .inl h
          · exact .inr ⟨h, rfl⟩
        · intro q it h
          rcases hit' h with h | ⟨-, rfl⟩
          · exact hi.itemsOk q it h
          · exact hok
        · show ((name :: items.map Prod.fst)).Nodup
          rw [List.nodup_cons]
          refine ⟨fun hm => ?_, hi.itemsKeys⟩
          obtain ⟨y, hy, rfl⟩ := List.mem_map.1 hm
          exact hfree' y.2 hy

/-! ## Feeding -/

theorem updateIn_ne (flows : List (Option (Flow Name D))) (id j id' : Nat) (f : FlowIn Name D → FlowIn Name D) (h : id' ≠ id) : (updateIn flows id j f)[id']? = flows[id']? := by
  unfold updateIn
  rw [List.getElem?_modify]
  simp [Ne.symm h]

theorem updateIn_eq (flows : List (Option (Flow Name D))) (id j : Nat) (f : FlowIn Name D → FlowIn Name D) {flow : Flow Name D} (h : flows[id]? = some (some flow)) : (updateIn flows id j f)[id]? = some (some { flow with ins := flow.ins.modify j f }) := by
  unfold updateIn
  rw [List.getElem?_modify, h]
  simp

theorem updateIn_owned (flows : List (Option (Flow Name D))) (id j id' : Nat) (f : FlowIn Name D → FlowIn Name D) {flow : Flow Name D} (h : (updateIn flows id j f)[id']? = some (some flow)) : ∃ flow', flows[id']? = some (some flow') := by
  unfold updateIn at h
  rw [List.getElem?_modify] at h
  cases hf : flows[id']? with
  | none =>
    rw [hf] at h
    cases h
  | some o =>
    cases o with
    | some flow' => exact ⟨flow', rfl⟩
    | none =>
      rw [hf] at h
      by_cases he : id = id' <;> simp [he] at h

theorem modify_ins (ins : List (FlowIn Name D)) (j j' : Nat) (f : FlowIn Name D → FlowIn Name D) : (ins.modify j f)[j']? = (ins[j']?).map fun i => if j = j' then f i else i := by
  rw [List.getElem?_modify]
  split <;> simp_all

theorem filterMap_modify (ins : List (FlowIn Name D)) (j : Nat) (f : FlowIn Name D → FlowIn Name D) (hf : ∀ i, readName (f i) = readName i) : (ins.modify j f).filterMap readName = ins.filterMap readName := by
  induction ins generalizing j with
  | nil => simp
  | cons i ins ih =>
    cases j with
    | zero => simp [List.modify_cons, List.filterMap_cons, hf]
    | succ j => simp [List.filterMap_cons, ih]

theorem mem_modify_read {ins : List (FlowIn Name D)} {j : Nat} {f : FlowIn Name D → FlowIn Name D} (hf : ∀ i nm id k since, f i = .read nm id k since → i = .read nm id k since) {nm : Name} {id k since : Nat} (h : FlowIn.read nm id k since ∈ ins.modify j f) : FlowIn.read nm id k since ∈ ins := by
  obtain ⟨j', hj⟩ := List.getElem?_of_mem h
  rw [modify_ins] at hj
  simp only [Option.map_eq_some_iff] at hj
  obtain ⟨i, hi, he⟩ := hj
  split at he
  · rw [← hf i _ _ _ _ he]
    exact List.mem_of_getElem? hi
  · rw [← he]
    exact List.mem_of_getElem? hi

theorem addUpdate_name (u : D × Nat × Int) (i : FlowIn Name D) : readName (addUpdate u i) = readName i := by cases i <;> rfl

theorem addUpdate_read (u : D × Nat × Int) (i : FlowIn Name D) (nm : Name) (id k since : Nat) (h : addUpdate u i = .read nm id k since) : i = .read nm id k since := by
  cases i with
  | input => cases h
  | read => exact h

theorem advanceTo_name (t : Nat) (i : FlowIn Name D) : readName (advanceTo t i) = readName i := by cases i <;> rfl

theorem advanceTo_read (t : Nat) (i : FlowIn Name D) (nm : Name) (id k since : Nat) (h : advanceTo t i = .read nm id k since) : i = .read nm id k since := by
  cases i with
  | input => cases h
  | read => exact h

theorem Inv.feed {s : Server Name D} {items : List (Name × Item Name D)} {start : Nat} (hi : Inv w s items start) (prog : Name) (input : Nat) (row : D) (time : Option Nat) (diff : Int) :
    ∃ s' ok, s.feed w prog input row time diff = some (s', ok) ∧ Inv w s' (after w items s.epoch (.feed prog input row time diff) ok) start ∧ (ok = true ↔ s.epoch ≤ time.getD s.epoch ∧ ∃ it, (w.canon prog, it) ∈ items ∧ Src.input input ∈ it.prog.imports) := by
  unfold Server.feed
  simp only
  by_cases hlt : time.getD s.epoch < s.epoch
  · rw [if_pos hlt]
    exact ⟨s, false, rfl, hi, iff_of_false (by simp) fun h => absurd h.1 (Nat.not_le.2 hlt)⟩
  rw [if_neg hlt]
  cases hpr : s.program (w.canon prog) with
  | none =>
    refine ⟨s, false, rfl, hi, iff_of_false (by simp) ?_⟩
    rintro ⟨-, it, h, -⟩
    obtain ⟨p, hp, -⟩ := hi.progs _ _ h
    exact lookup_none_iff.1 hpr p hp
  | some p =>
    have hm := lookup_some_mem hpr
    by_cases ho : p.origin = .program
    swap
    · simp only [ne_eq, ho, not_false_eq_true, if_true]
      refine ⟨s, false, rfl, hi, iff_of_false (by simp) ?_⟩
      rintro ⟨-, it, h, -⟩
      obtain ⟨p', hp, ho'⟩ := hi.progs _ _ h
      have := hi.program_eq hp
      rw [hpr] at this
      cases this
      exact ho ho'
    obtain ⟨flow, hf, hg⟩ := hi.flow _ hm
    have hk := hg.kind
    unfold Kind at hk
    simp only [ho] at hk
    obtain ⟨h1, h2, it, h3, h4, h5, h6, h7, h8⟩ := hk
    simp only [ne_eq, ho, not_true_eq_false, if_false]
    cases hl : p.inputs.lookup input with
    | none =>
      refine ⟨s, false, rfl, hi, iff_of_false (by simp) ?_⟩
      rintro ⟨-, it', h, hin⟩
      cases hi.item_eq h3 h
      obtain ⟨j, hj⟩ := List.getElem?_of_mem hin
      exact lookup_none_iff.1 hl j (by rw [h7]; exact mem_handlesOf.2 hj)
    | some j =>
      have hin := lookup_some_mem hl
      obtain ⟨ups, hj⟩ := hg.inputs _ _ hin
      simp only at hf
      have ht : timeOf s.flows p.id j = some s.epoch := by
        unfold timeOf
        rw [hf]
        simp only [Option.bind_some]
        rw [hj]
        rfl
      have hij : it.prog.imports[j]? = some (.input input) := mem_handlesOf.1 (by rw [← h7]; exact hin)
      simp only [ht, Option.bind_some, if_pos (Nat.not_lt.1 hlt)]
      refine ⟨_, true, rfl, ?_, iff_of_true rfl ⟨Nat.not_lt.1 hlt, it, h3, List.mem_of_getElem? hij⟩⟩
      have hid : ∀ x ∈ s.programs, x ≠ (w.canon prog, p) → x.2.id ≠ p.id := fun x hx hne he => hne (hi.ids x hx _ hm he)
      have hmem : ∀ q it', q ≠ w.canon prog → ((q, it') ∈ after w items s.epoch (.feed prog input row time diff) true ↔ (q, it') ∈ items) := by
        intro q it' hq
        unfold after
        rw [List.mem_map]
        constructor
        · rintro ⟨y, hy, he⟩
          split at he
          · next hc => exact absurd ((Prod.mk.inj he).1.symm.trans hc) hq
          · exact he ▸ hy
        · intro h
          exact ⟨_, h, if_neg hq⟩
      have hmem2 : ∀ q it', (q, it') ∈ after w items s.epoch (.feed prog input row time diff) true → ∃ it'', (q, it'') ∈ items ∧ it'.prog = it''.prog := by
        intro q it' h
        unfold after at h
        obtain ⟨y, hy, he⟩ := List.mem_map.1 h
        split at he
        · cases he
          exact ⟨y.2, hy, rfl⟩
        · subst he
          exact ⟨_, hy, rfl⟩
      refine ⟨hi.keys, hi.ids, ?_, hi.traces, hi.exports, hi.count, ?_, ?_, ?_, hi.started, ?_⟩
      · intro x hx
        by_cases hxe : x = (w.canon prog, p)
        · subst hxe
          refine ⟨_, updateIn_eq _ _ _ _ hf, ?_, ?_, ?_, hg.exports, ?_⟩
          · simp only
            rw [filterMap_modify _ _ _ (addUpdate_name _)]
            exact hg.names
          · intro nm id k since hr
            exact hg.reads nm id k since (mem_modify_read (addUpdate_read _) hr)
          · intro n j' hm'
            obtain ⟨ups', hj'⟩ := hg.inputs n j' hm'
            simp only
            rw [modify_ins, hj']
            simp only [Option.map_some]
            split
            · exact ⟨_, rfl⟩
            · exact ⟨_, rfl⟩
          · unfold Kind
            simp only [ho]
            refine ⟨h1, h2, ⟨it.prog, it.fed ++ [(input, row, time.getD s.epoch, diff)]⟩, ?_, h4, h5, ⟨?_, ?_, ?_⟩, h7, h8⟩
            · unfold after
              exact List.mem_map.2 ⟨_, h3, if_pos rfl⟩
            · rw [List.length_modify]
              exact h6.len
            · intro j' n hn
              obtain ⟨tm, hin'⟩ := h6.inp j' n hn
              refine ⟨tm, ?_⟩
              rw [modify_ins, hin', List.filter_append, List.map_append]
              simp only [Option.map_some]
              by_cases hjj : j = j'
              · subst hjj
                rw [hij] at hn
                cases hn
                simp [addUpdate]
              · rw [if_neg hjj]
                have hne : input ≠ n := by
                  rintro rfl
                  exact hjj (index_unique (hi.itemsOk _ _ h3).inputs rfl hij hn)
                simp [hne]
            · intro j' m hn
              obtain ⟨id, k, since, hr⟩ := h6.tr j' m hn
              refine ⟨id, k, since, ?_⟩
              rw [modify_ins, hr]
              simp only [Option.map_some]
              split <;> rfl
        · obtain ⟨f, hf', hg'⟩ := hi.flow x hx
          refine ⟨f, ?_, hg'.names, hg'.reads, hg'.inputs, hg'.exports, ?_⟩
          · rw [updateIn_ne _ _ _ _ _ (hid x hx hxe)]
            exact hf'
          · have hk' := hg'.kind
            unfold Kind at hk' ⊢
            cases ho' : x.2.origin with
            | program =>
              simp only [ho'] at hk' ⊢
              obtain ⟨g1, g2, it', g3, g4⟩ := hk'
              refine ⟨g1, g2, it', (hmem _ _ ?_).2 g3, g4⟩
              intro he
              apply hxe
              have := List.inj_on_of_nodup_map hi.keys hx hm he
              exact this
            | generated => simpa only [ho'] using hk'
            | clock => simpa only [ho'] using hk'
      · intro q it' h
        obtain ⟨it'', h, -⟩ := hmem2 q it' h
        exact hi.progs q it'' h
      · intro q it' h
        obtain ⟨it'', h, he⟩ := hmem2 q it' h
        rw [he]
        exact hi.itemsOk q it'' h
      · have : (after w items s.epoch (.feed prog input row time diff) true).map Prod.fst = items.map Prod.fst := by
          unfold after
          rw [List.map_map]
          apply List.map_congr_left
          intro y _
          simp only [Function.comp]
          split <;> rfl
        rw [this]
        exact hi.itemsKeys
      · intro id f hf'
        obtain ⟨f', hf'⟩ := updateIn_owned _ _ _ _ _ hf'
        exact hi.owned id f' hf'

/-! ## Ticking -/

/-- What a tick does to the imports of a dataflow. -/
def tickIns (w : World Name R D) (cur : Nat) (p : Installed Name) (ins : List (FlowIn Name D)) : List (FlowIn Name D) :=
  p.inputs.foldl (fun ins h => ins.modify h.2 (advanceTo (cur + 1))) (if p.origin = .clock then match p.inputs.lookup 0 with
    | some j => (ins.modify j (addUpdate (w.clockRow cur, cur + 1, -1))).modify j (addUpdate (w.clockRow (cur + 1), cur + 1, 1))
    | none => ins
    else ins)

theorem foldl_updateIn_ne (hs : List (Nat × Nat)) (flows : List (Option (Flow Name D))) (id id' t : Nat) (h : id' ≠ id) : (hs.foldl (fun flows h => updateIn flows id h.2 (advanceTo t)) flows)[id']? = flows[id']? := by
  induction hs generalizing flows with
  | nil => rfl
  | cons x hs ih => rw [List.foldl_cons, ih, updateIn_ne _ _ _ _ _ h]

theorem foldl_updateIn_eq (hs : List (Nat × Nat)) (flows : List (Option (Flow Name D))) (id t : Nat) {flow : Flow Name D} (h : flows[id]? = some (some flow)) :
    (hs.foldl (fun flows h => updateIn flows id h.2 (advanceTo t)) flows)[id]? = some (some { flow with ins := hs.foldl (fun ins h => ins.modify h.2 (advanceTo t)) flow.ins }) := by
  induction hs generalizing flows flow with
  | nil => exact h
  | cons x hs ih =>
    rw [List.foldl_cons, ih _ (updateIn_eq _ _ _ _ h)]
    rfl

theorem tickProgram_ne (cur : Nat) (flows : List (Option (Flow Name D))) (p : Installed Name) (id' : Nat) (h : id' ≠ p.id) : (tickProgram w cur flows p)[id']? = flows[id']? := by
  unfold tickProgram
  simp only
  rw [foldl_updateIn_ne _ _ _ _ _ h]
  split
  · split
    · rw [updateIn_ne _ _ _ _ _ h, updateIn_ne _ _ _ _ _ h]
    · rfl
  · rfl

theorem tickProgram_eq (cur : Nat) (flows : List (Option (Flow Name D))) (p : Installed Name) {flow : Flow Name D} (h : flows[p.id]? = some (some flow)) : (tickProgram w cur flows p)[p.id]? = some (some { flow with ins := tickIns w cur p flow.ins }) := by
  unfold tickProgram tickIns
  simp only
  by_cases ho : p.origin = .clock
  · simp only [ho, if_true]
    cases hl : p.inputs.lookup 0 with
    | none => exact foldl_updateIn_eq _ _ _ _ h
    | some j =>
      exact foldl_updateIn_eq _ _ _ _ (updateIn_eq _ _ _ _ (updateIn_eq _ _ _ _ h))
  · simp only [ho, if_false]
    exact foldl_updateIn_eq _ _ _ _ h

theorem tickAll_ne (cur : Nat) (ps : List (Installed Name)) (flows : List (Option (Flow Name D))) (id' : Nat) (h : ∀ p ∈ ps, id' ≠ p.id) : (ps.foldl (tickProgram w cur) flows)[id']? = flows[id']? := by
  induction ps generalizing flows with
  | nil => rfl
  | cons p ps ih => rw [List.foldl_cons, ih _ fun q hq => h q (List.mem_cons_of_mem _ hq), tickProgram_ne _ _ _ _ (h p List.mem_cons_self)]

theorem tickAll_eq (cur : Nat) (ps : List (Installed Name)) (hd : (ps.map Installed.id).Nodup) (flows : List (Option (Flow Name D))) {p : Installed Name} (hp : p ∈ ps) {flow : Flow Name D} (h : flows[p.id]? = some (some flow)) :
    (ps.foldl (tickProgram w cur) flows)[p.id]? = some (some { flow with ins := tickIns w cur p flow.ins }) := by
  induction ps generalizing flows with
  | nil => cases hp
  | cons q ps ih =>
    rw [List.map_cons, List.nodup_cons] at hd
    rw [List.foldl_cons]
    rcases List.mem_cons.1 hp with rfl | hp
    · rw [tickAll_ne _ _ _ _ fun q hq he => hd.1 (List.mem_map.2 ⟨q, hq, he.symm⟩)]
      exact tickProgram_eq _ _ _ h
    · refine ih hd.2 _ hp ?_
      rw [tickProgram_ne _ _ _ _ fun he => hd.1 (List.mem_map.2 ⟨p, hp, he⟩)]
      exact h

theorem tickProgram_owned (cur : Nat) (flows : List (Option (Flow Name D))) (p : Installed Name) (id : Nat) {flow : Flow Name D} (h : (tickProgram w cur flows p)[id]? = some (some flow)) : ∃ flow', flows[id]? = some (some flow') := by
  have adv : ∀ (hs : List (Nat × Nat)) (flows : List (Option (Flow Name D))) (flow : Flow Name D), (hs.foldl (fun flows h => updateIn flows p.id h.2 (advanceTo (cur + 1))) flows)[id]? = some (some flow) → ∃ flow', flows[id]? = some (some flow') := by
    intro hs
    induction hs with
    | nil => exact fun flows flow h => ⟨flow, h⟩
    | cons x hs ih =>
      intro flows flow h
      obtain ⟨f, hf⟩ := ih _ flow h
      exact updateIn_owned _ _ _ _ _ hf
  unfold tickProgram at h
  simp only at h
  obtain ⟨f, hf⟩ := adv _ _ _ h
  split at hf
  · split at hf
    · obtain ⟨f, hf⟩ := updateIn_owned _ _ _ _ _ hf
      exact updateIn_owned _ _ _ _ _ hf
    · exact ⟨f, hf⟩
  · exact ⟨f, hf⟩

theorem tickAll_owned (cur : Nat) (ps : List (Installed Name)) (flows : List (Option (Flow Name D))) (id : Nat) {flow : Flow Name D} (h : (ps.foldl (tickProgram w cur) flows)[id]? = some (some flow)) : ∃ flow', flows[id]? = some (some flow') := by
  induction ps generalizing flows with
  | nil => exact ⟨flow, h⟩
  | cons p ps ih =>
    obtain ⟨f, hf⟩ := ih _ h
    exact tickProgram_owned _ _ _ _ hf

theorem advance_names (hs : List (Nat × Nat)) (t : Nat) (ins : List (FlowIn Name D)) : (hs.foldl (fun ins h => ins.modify h.2 (advanceTo t)) ins).filterMap readName = ins.filterMap readName := by
  induction hs generalizing ins with
  | nil => rfl
  | cons x hs ih => rw [List.foldl_cons, ih, filterMap_modify _ _ _ (advanceTo_name t)]

theorem advance_at (hs : List (Nat × Nat)) (t : Nat) (ins : List (FlowIn Name D)) : (hs.foldl (fun ins h => ins.modify h.2 (advanceTo t)) ins).length = ins.length ∧ ∀ (j : Nat) i, ins[j]? = some i → ∃ i', (hs.foldl (fun ins h => ins.modify h.2 (advanceTo t)) ins)[j]? = some i' ∧ (i' = i ∨ i' = advanceTo t i) ∧ ((∃ n, (n, j) ∈ hs) → i' = advanceTo t i) := by
  induction hs generalizing ins with
  | nil => exact ⟨rfl, fun j i hj => ⟨i, hj, .inl rfl, fun ⟨n, h⟩ => by cases h⟩⟩
  | cons x hs ih =>
    rw [List.foldl_cons]
    obtain ⟨h1, h2⟩ := ih (ins.modify x.2 (advanceTo t))
    refine ⟨h1.trans (List.length_modify ..), fun j i hj => ?_⟩
    have hid : advanceTo t (advanceTo t i) = advanceTo t i := by cases i <;> rfl
    by_cases hx : x.2 = j
    · obtain ⟨i', h3, h4, h5⟩ := h2 j (advanceTo t i) (by rw [modify_ins, hj]; simp [hx])
      have : i' = advanceTo t i := by
        rcases h4 with h4 | h4
        · exact h4
        · rw [h4, hid]
      exact ⟨i', h3, .inr this, fun _ => this⟩
    · obtain ⟨i', h3, h4, h5⟩ := h2 j i (by rw [modify_ins, hj]; simp [hx])
      refine ⟨i', h3, h4, fun ⟨n, hn⟩ => h5 ⟨n, ?_⟩⟩
      rcases List.mem_cons.1 hn with rfl | hn
      · exact absurd rfl hx
      · exact hn

theorem Inv.tick {s : Server Name D} {items : List (Name × Item Name D)} {start : Nat} (hi : Inv w s items start) : Inv w (s.tick w) items start := by
  have hnd : ((s.programs.map Prod.snd).map Installed.id).Nodup := by
    rw [List.map_map]
    refine List.Nodup.map_on (fun x hx y hy he => hi.ids x hx y hy he) ?_
    exact List.Nodup.of_map _ hi.keys
  refine ⟨hi.keys, hi.ids, ?_, ?_, ?_, hi.count, hi.progs, hi.itemsOk, hi.itemsKeys, Nat.le_succ_of_le hi.started, ?_⟩
  · intro x hx
    obtain ⟨flow, hf, hg⟩ := hi.flow x hx
    refine ⟨_, tickAll_eq s.epoch _ hnd s.flows (List.mem_map_of_mem hx) hf, ?_⟩
    have hk := hg.kind
    unfold Kind at hk
    have hreads : ∀ nm id k since, FlowIn.read nm id k since ∈ flow.ins → id < x.2.id ∧ since ≤ (s.tick w).epoch - 1 ∧ ∃ since', (s.tick w).traces nm = some (id, k, since') := by
      intro nm id k since hm
      obtain ⟨h1, h2, s', h3⟩ := hg.reads nm id k since hm
      refine ⟨h1, ?_, ?_⟩
      · show since ≤ s.epoch + 1 - 1
        omega
      · show ∃ since', (s.traces nm).map _ = _
        rw [h3]
        exact ⟨_, rfl⟩
    have hsrc : ∀ ups ups', flow.ins = [.input s.epoch ups] ∨ (∃ time, flow.ins = [.input time ups]) → x.2.inputs = [(0, 0)] → tickIns w s.epoch x.2 flow.ins = [.input (s.epoch + 1) ups'] → x.2.exports.Nodup → Kind w items (s.epoch + 1) start x ⟨[.input (s.epoch + 1) ups'], flow.run⟩ → Good w (s.tick w) items start x { flow with ins := tickIns w s.epoch x.2 flow.ins } := by
      intro ups ups' hins hinp ht hex hkd
      rw [ht]
      refine ⟨?_, ?_, ?_, hex, hkd⟩
      · have := hg.names
        rcases hins with h | ⟨time, h⟩ <;> rw [h] at this <;> exact this
      · intro nm id k since hm
        simp at hm
      · intro n j hm
        rw [hinp] at hm
        simp at hm
        obtain ⟨rfl, rfl⟩ := hm
        exact ⟨_, rfl⟩
    cases ho : x.2.origin with
    | program =>
      simp only [ho] at hk
      obtain ⟨h1, h2, it, h3, h4, h5, h6, h7, h8⟩ := hk
      have hti : tickIns w s.epoch x.2 flow.ins = x.2.inputs.foldl (fun ins h => ins.modify h.2 (advanceTo (s.epoch + 1))) flow.ins := by
        unfold tickIns
        rw [ho]
        rfl
      rw [hti]
      obtain ⟨hlen, hat⟩ := advance_at x.2.inputs (s.epoch + 1) flow.ins
      refine ⟨?_, ?_, ?_, hg.exports, ?_⟩
      · simp only
        rw [advance_names]
        exact hg.names
      · intro nm id k since hm
        refine hreads nm id k since ?_
        simp only at hm
        obtain ⟨j, hj⟩ := List.getElem?_of_mem hm
        have hlt : j < flow.ins.length := hlen ▸ (List.getElem?_eq_some_iff.1 hj).1
        obtain ⟨i', g1, g2, -⟩ := hat j _ (List.getElem?_eq_getElem hlt)
        rw [g1] at hj
        cases hj
        have : flow.ins[j] = .read nm id k since := by
          rcases g2 with g2 | g2
          · exact g2.symm
          · exact advanceTo_read _ _ _ _ _ _ g2.symm
        rw [← this]
        exact List.getElem_mem hlt
      · intro n j hm
        obtain ⟨ups, hu⟩ := hg.inputs n j hm
        obtain ⟨i', g1, -, g3⟩ := hat j _ hu
        simp only
        rw [g1, g3 ⟨n, hm⟩]
        exact ⟨ups, rfl⟩
      · unfold Kind
        simp only [ho]
        refine ⟨h1, h2, it, h3, h4, h5, ⟨hlen.trans h6.len, ?_, ?_⟩, h7, h8⟩
        · intro j n hn
          obtain ⟨tm, hu⟩ := h6.inp j n hn
          obtain ⟨i', g1, g2, -⟩ := hat j _ hu
          rw [g1]
          rcases g2 with g2 | g2 <;> rw [g2] <;> exact ⟨_, rfl⟩
        · intro j m hn
          obtain ⟨id, k, since, hu⟩ := h6.tr j m hn
          obtain ⟨i', g1, g2, -⟩ := hat j _ hu
          rw [g1]
          rcases g2 with g2 | g2 <;> rw [g2] <;> exact ⟨_, _, _, rfl⟩
    | generated =>
      simp only [ho] at hk
      obtain ⟨h1, h2, h3, h4, r, tm, h5, h6⟩ := hk
      refine hsrc _ ((w.rows r).map fun d => (d, 0, 1)) (.inr ⟨tm, h6⟩) h2 ?_ hg.exports ?_
      · unfold tickIns
        rw [ho, h2, h6]
        rfl
      · unfold Kind
        simp only [ho]
        exact ⟨h1, h2, h3, h4, r, _, h5, rfl⟩
    | clock =>
      simp only [ho] at hk
      obtain ⟨h1, h2, h3, h4, h5, tm, h6⟩ := hk
      refine hsrc _ (clockUps w start (s.epoch + 1 - start)) (.inr ⟨tm, h6⟩) h3 ?_ hg.exports ?_
      · unfold tickIns
        rw [ho, h3, h6]
        obtain ⟨n, hn⟩ : ∃ n, s.epoch = start + n := ⟨s.epoch - start, by omega⟩
        rw [hn, show start + n - start = n by omega, show start + n + 1 - start = n + 1 by omega]
        rfl
      · unfold Kind
        simp only [ho]
        exact ⟨h1, h2, h3, h4, by omega, _, rfl⟩
  · intro nm id k since ht
    have ht : (s.traces nm).map (fun x => (x.1, x.2.1, s.epoch + 1 - 1)) = some (id, k, since) := ht
    simp only [Option.map_eq_some_iff, Prod.mk.injEq] at ht
    obtain ⟨⟨a, b, c⟩, h1, rfl, rfl, rfl⟩ := ht
    obtain ⟨-, h2⟩ := hi.traces nm a b c h1
    exact ⟨le_rfl, h2⟩
  · intro x hx k nm hk
    obtain ⟨since, ht⟩ := hi.exports x hx k nm hk
    refine ⟨s.epoch + 1 - 1, ?_⟩
    show (s.traces nm).map _ = _
    rw [ht]
    rfl
  · intro id f hf
    obtain ⟨f', hf'⟩ := tickAll_owned _ _ _ _ hf
    exact hi.owned id f' hf'

/-! ## Dropping -/

theorem Inv.drop {s : Server Name D} {items : List (Name × Item Name D)} {start : Nat} (hi : Inv w s items start) (name : Name) :
    Inv w (s.dropProgram w name).1 (after w items s.epoch (.drop name) (s.dropProgram w name).2) start ∧ ((s.dropProgram w name).2 = false → (s.dropProgram w name).1 = s) ∧
    ((s.dropProgram w name).2 = true ↔ ∃ p, (w.canon name, p) ∈ s.programs ∧ ∀ e ∈ p.exports, ∀ x ∈ s.programs, e ∉ x.2.imports) := by
  unfold Server.dropProgram
  simp only
  cases hpr : s.program (w.canon name) with
  | none =>
    refine ⟨hi, fun _ => rfl, iff_of_false (by simp) ?_⟩
    rintro ⟨p, hp, -⟩
    exact lookup_none_iff.1 hpr p hp
  | some p =>
    have hm := lookup_some_mem hpr
    simp only
    by_cases he : (p.exports.any fun e => decide (s.importers e > 0)) = true
    · rw [if_pos he]
      refine ⟨hi, fun _ => rfl, iff_of_false (by simp) ?_⟩
      rintro ⟨p', hp', h⟩
      have := hi.program_eq hp'
      rw [hpr] at this
      cases this
      obtain ⟨e, hme, hpos⟩ := List.any_eq_true.1 he
      have hpos := of_decide_eq_true hpos
      rw [hi.count e] at hpos
      have hz : (s.programs.map fun x => x.2.imports.count e).sum = 0 := by
        rw [List.sum_eq_zero_iff]
        intro n hn
        obtain ⟨x, hx, rfl⟩ := List.mem_map.1 hn
        exact List.count_eq_zero.2 (h e hme x hx)
      omega
    · rw [if_neg he]
      have hno : ∀ e ∈ p.exports, ∀ x ∈ s.programs, e ∉ x.2.imports := by
        intro e hme x hx hin
        apply he
        refine List.any_eq_true.2 ⟨e, hme, decide_eq_true ?_⟩
        rw [hi.count e]
        have : x.2.imports.count e ≤ (s.programs.map fun x => x.2.imports.count e).sum := List.single_le_sum (fun _ _ => Nat.zero_le _) _ (List.mem_map.2 ⟨x, hx, rfl⟩)
        have := List.count_pos_iff.2 hin
        omega
      refine ⟨?_, fun h => (by cases h), iff_of_true rfl ⟨p, hm, hno⟩⟩
      have hmem : ∀ x, x ∈ s.programs.filter (fun q => q.1 ≠ w.canon name) ↔ x ∈ s.programs ∧ x.1 ≠ w.canon name := by
        intro x
        rw [List.mem_filter]
        simp
      have hne : ∀ x ∈ s.programs, x.1 ≠ w.canon name → x.2.id ≠ p.id := by
        intro x hx h hid
        exact h (by rw [hi.ids x hx _ hm hid])
      have htr : ∀ nm, p.exports.foldl (fun (traces : Name → Option (Nat × Nat × Nat)) e => Function.update traces e none) s.traces nm = if nm ∈ p.exports then none else s.traces nm := foldl_none _ _
      refine ⟨?_, ?_, ?_, ?_, ?_, ?_, ?_, ?_, ?_, hi.started, ?_⟩
      · exact List.Nodup.sublist (List.Sublist.map _ List.filter_sublist) hi.keys
      · intro x hx y hy h
        exact hi.ids x ((hmem x).1 hx).1 y ((hmem y).1 hy).1 h
      · intro x hx
        obtain ⟨hx, hxn⟩ := (hmem x).1 hx
        obtain ⟨flow, hf, hg⟩ := hi.flow x hx
        refine ⟨flow, ?_, hg.names, ?_, hg.inputs, hg.exports, ?_⟩
        · simp only
          rw [List.getElem?_set_ne (Ne.symm (hne x hx hxn))]
          exact hf
        · intro nm id k since hr
          obtain ⟨h1, h2, s', h3⟩ := hg.reads nm id k since hr
          refine ⟨h1, h2, s', ?_⟩
          simp only
          rw [htr, if_neg, h3]
          intro hin
          refine hno nm hin x hx ?_
          rw [hg.names]
          exact List.mem_filterMap.2 ⟨_, hr, rfl⟩
        · have hk := hg.kind
          unfold Kind at hk ⊢
          cases ho : x.2.origin with
          | program =>
            simp only [ho] at hk ⊢
            obtain ⟨g1, g2, it, g3, g4⟩ := hk
            refine ⟨g1, g2, it, ?_, g4⟩
            unfold after
            exact List.mem_filter.2 ⟨g3, by simpa using hxn⟩
          | generated => simpa only [ho] using hk
          | clock => simpa only [ho] using hk
      · intro nm id k since ht
        simp only at ht
        rw [htr] at ht
        split at ht
        · cases ht
        · next hnm =>
          obtain ⟨h1, x, hx, h2, h3⟩ := hi.traces nm id k since ht
          refine ⟨h1, x, (hmem x).2 ⟨hx, ?_⟩, h2, h3⟩
          intro hxe
          have := List.inj_on_of_nodup_map hi.keys hx hm hxe
          rw [this] at h3
          exact hnm (List.mem_of_getElem? h3)
      · intro x hx k nm hk
        obtain ⟨hx, hxn⟩ := (hmem x).1 hx
        obtain ⟨since, ht⟩ := hi.exports x hx k nm hk
        refine ⟨since, ?_⟩
        simp only
        rw [htr, if_neg, ht]
        intro hin
        obtain ⟨k', hk'⟩ := List.getElem?_of_mem hin
        obtain ⟨since', ht'⟩ := hi.exports _ hm k' nm hk'
        rw [ht] at ht'
        simp only [Option.some.injEq, Prod.mk.injEq] at ht'
        exact hne x hx hxn ht'.1
      · intro nm
        simp only
        refine (foldl_importers_sub p.imports s.importers nm).trans ?_
        rw [hi.count nm, sum_filter hi.keys hm]
        simp
      · intro q it h
        unfold after at h
        obtain ⟨h, hq⟩ := List.mem_filter.1 h
        obtain ⟨p', hp', ho⟩ := hi.progs q it h
        exact ⟨p', (hmem _).2 ⟨hp', by simpa using hq⟩, ho⟩
      · intro q it h
        unfold after at h
        exact hi.itemsOk q it (List.mem_filter.1 h).1
      · unfold after
        exact List.Nodup.sublist (List.Sublist.map _ List.filter_sublist) hi.itemsKeys
      · intro id f hf
        simp only at hf
        by_cases he : p.id = id
        · rw [he, List.getElem?_set_self'] at hf
          cases h : s.flows[id]? <;> rw [h] at hf <;> cases hf
        · rw [List.getElem?_set_ne he] at hf
          obtain ⟨x, hx, hxe⟩ := hi.owned id f hf
          refine ⟨x, (hmem x).2 ⟨hx, ?_⟩, hxe⟩
          intro hn
          have := List.inj_on_of_nodup_map hi.keys hx hm hn
          rw [this] at hxe
          exact he hxe

end DD.Srv
