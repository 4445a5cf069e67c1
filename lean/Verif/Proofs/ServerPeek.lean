import Verif.Proofs.ServerRun

/-! # Lemmas about the contents of collections of the server -/

set_option linter.unusedSectionVars false

namespace DD.Srv

variable {Name R D : Type*} [DecidableEq Name] [DecidableEq D] {w : World Name R D}

theorem Reach.inv {s : Server Name D} {items : List (Name × Item Name D)} (h : Reach w s items) : ∃ start, Inv w s items start := by
  induction h with
  | new => exact ⟨0, List.nodup_nil, fun x hx => (by cases hx), fun x hx => (by cases hx), fun nm id k since h => (by cases h), fun x hx => (by cases hx), fun nm => rfl, fun q it h => (by cases h), fun q it h => (by cases h), List.nodup_nil, le_rfl, fun id f h => (by simp [Server.new] at h)⟩
  | @step s s' items cmd ok _ hc hs ih =>
    obtain ⟨start, hi⟩ := ih
    cases cmd with
    | install name prog =>
      obtain ⟨s1, ok1, start1, he, hi1, -⟩ := hi.install name prog hc.1 hc.2.1 hc.2.2
      have hs : s.install w name prog = some (s', ok) := hs
      rw [he] at hs
      cases hs
      exact ⟨start1, hi1⟩
    | feed prog input row time diff =>
      obtain ⟨s1, ok1, he, hi1, -⟩ := hi.feed (w := w) prog input row time diff
      have hs : s.feed w prog input row time diff = some (s', ok) := hs
      rw [he] at hs
      cases hs
      exact ⟨start, hi1⟩
    | tick =>
      cases hs
      exact ⟨start, hi.tick⟩
    | drop name =>
      have hs : some (s.dropProgram w name) = some (s', ok) := hs
      have hs := Option.some.inj hs
      have := (hi.drop (w := w) name).1
      rw [hs] at this
      exact ⟨start, this⟩

theorem accum_append (a b : List (D × Nat × Int)) (t : Nat) (d : D) : accum (a ++ b) t d = accum a t d + accum b t d := by
  unfold accum
  rw [List.filter_append, List.map_append, List.sum_append]

theorem accum_one (d' : D) (t' : Nat) (r : Int) (t : Nat) (d : D) : accum [(d', t', r)] t d = if d' = d ∧ t' ≤ t then r else 0 := by
  unfold accum
  by_cases h : d' = d ∧ t' ≤ t <;> simp [h]

theorem accum_fed (it : Item Name D) (n t : Nat) : accum ((it.fed.filter fun u => u.1 = n).map fun u => u.2) t = it.input n t := by
  funext d
  unfold accum Item.input
  rw [List.filter_map, List.map_map, List.filter_filter]
  congr 2
  apply List.filter_congr
  intro u _
  simp only [Function.comp]
  by_cases h1 : u.1 = n <;> by_cases h2 : u.2.1 = d ∧ u.2.2.1 ≤ t <;> simp [h1, h2]

theorem accum_rows (rows : List D) (t : Nat) : accum (rows.map fun d => (d, 0, (1 : Int))) t = fun d => (rows.count d : Int) := by
  funext d
  induction rows with
  | nil => rfl
  | cons x rows ih =>
    rw [List.map_cons, ← List.singleton_append, accum_append, accum_one, ih, List.count_cons]
    by_cases h : x = d
    · simp [h]
      ring
    · simp [h]

theorem accum_clock (start n t : Nat) (h : t ≤ start + n) : accum (clockUps w start n) t = fun d => if start ≤ t ∧ d = w.clockRow t then 1 else 0 := by
  have late : ∀ (m t : Nat), t < start → accum (clockUps w start m) t = fun _ => 0 := by
    intro m t ht
    induction m with
    | zero =>
      funext d
      show accum [_] t d = 0
      rw [accum_one, if_neg (by omega)]
    | succ m ih =>
      funext d
      show accum (clockUps w start m ++ [_] ++ [_]) t d = 0
      rw [accum_append, accum_append, ih, accum_one, accum_one, if_neg (by omega), if_neg (by omega)]
      rfl
  by_cases ht : t < start
  · rw [late n t ht]
    funext d
    rw [if_neg (by omega)]
  have closed : ∀ (m : Nat), start + m ≤ t → accum (clockUps w start m) t = fun d => if d = w.clockRow (start + m) then 1 else 0 := by
    intro m hm
    induction m with
    | zero =>
      funext d
      show accum [_] t d = _
      rw [accum_one]
      by_cases hd : d = w.clockRow start
      · simp [hd]
        omega
      · rw [if_neg (fun h => hd h.1.symm)]
        simp [hd]
    | succ m ih =>
      funext d
      show accum (clockUps w start m ++ [_] ++ [_]) t d = _
      rw [accum_append, accum_append, ih (by omega), accum_one, accum_one]
      have hle : start + m + 1 ≤ t := by omega
      simp only [hle, and_true, eq_comm (b := d)]
      rw [show start + (m + 1) = start + m + 1 by omega]
      split <;> split <;> simp
  have stay : ∀ (m : Nat), t ≤ start + m → accum (clockUps w start m) t = accum (clockUps w start (t - start)) t := by
    intro m hm
    induction m with
    | zero => rw [show t - start = 0 by omega]
    | succ m ih =>
      by_cases he : t = start + (m + 1)
      · rw [show t - start = m + 1 by omega]
      · rw [← ih (by omega)]
        funext d
        show accum (clockUps w start m ++ [_] ++ [_]) t d = _
        rw [accum_append, accum_append, accum_one, accum_one, if_neg (by omega), if_neg (by omega)]
        simp
  rw [stay n h, closed _ (by omega)]
  funext d
  rw [show start + (t - start) = t by omega]
  simp only [Nat.not_lt.1 ht, true_and]

/-- Each collection is published at one place. -/
theorem Inv.place {s : Server Name D} {items : List (Name × Item Name D)} {start : Nat} (hi : Inv w s items start) {x y : Name × Item Name D} (hx : x ∈ items) (hy : y ∈ items) {nm : Name} {k k' : Nat} (hk : x.2.prog.exports[k]? = some nm) (hk' : y.2.prog.exports[k']? = some nm) : x = y ∧ k = k' := by
  obtain ⟨p, flow, hp, -, -, -, -, -, he, -⟩ := hi.of_item (q := x.1) (it := x.2) hx
  obtain ⟨p', flow', hp', -, -, -, -, -, he', -⟩ := hi.of_item (q := y.1) (it := y.2) hy
  obtain ⟨a, h1⟩ := hi.exports _ hp k nm (by rw [he]; exact hk)
  obtain ⟨b, h2⟩ := hi.exports _ hp' k' nm (by rw [he']; exact hk')
  rw [h1] at h2
  simp only [Option.some.injEq, Prod.mk.injEq] at h2
  have := hi.ids _ hp _ hp' h2.1
  have h3 := (Prod.mk.inj this).1
  exact ⟨List.inj_on_of_nodup_map hi.itemsKeys hx hy h3, h2.2.1⟩

/-- What an export of a dataflow contains is what the specification says. -/
theorem Inv.contents {s : Server Name D} {items : List (Name × Item Name D)} {start : Nat} (hi : Inv w s items start) (t : Nat) (ht : s.epoch - 1 ≤ t) (ht' : t ≤ s.epoch) (n : Nat) (x : Name × Installed Name) (hx : x ∈ s.programs) (hn : x.2.id < n) (k : Nat) (nm : Name) (hk : x.2.exports[k]? = some nm) :
    ∃ c, contentsAt s.flows t n x.2.id k = some c ∧ Shows w items start t nm c := by
  induction n generalizing x k nm with
  | zero => omega
  | succ n ih =>
    obtain ⟨flow, hf, hg⟩ := hi.flow x hx
    have hkd := hg.kind
    unfold Kind at hkd
    have hunf : contentsAt s.flows t (n + 1) x.2.id k = (flow.ins.mapM (FlowIn.contents (contentsAt s.flows t n) t)).bind fun cs => (flow.run cs)[k]? := by
      show s.flows[x.2.id]?.bind _ = _
      rw [hf]
      rfl
    have hpub : x.2.origin ≠ .program → ¬ Published items nm := by
      intro ho hP
      obtain ⟨y, hy, hm⟩ := hP
      obtain ⟨p, fl, hp, hop, -, -, -, -, he, -⟩ := hi.of_item (q := y.1) (it := y.2) hy
      obtain ⟨k', hk'⟩ := List.getElem?_of_mem hm
      obtain ⟨a, h1⟩ := hi.exports _ hp k' nm (by rw [he]; exact hk')
      obtain ⟨b, h2⟩ := hi.exports _ hx k nm hk
      rw [h1] at h2
      simp only [Option.some.injEq, Prod.mk.injEq] at h2
      have := hi.ids _ hp _ hx h2.1
      rw [← this] at ho
      exact ho hop
    have single : x.2.exports = [x.1] → nm = x.1 ∧ k = 0 := by
      intro he
      rw [he] at hk
      cases k with
      | zero =>
        simp at hk
        exact ⟨hk.symm, rfl⟩
      | succ k => simp at hk
    cases ho : x.2.origin with
    | program =>
      simp only [ho] at hkd
      obtain ⟨h1, h2, it, h3, h4, h5, h6, h7, h8⟩ := hkd
      have hread : ∀ nm' id k' since, FlowIn.read nm' id k' since ∈ flow.ins → ∃ c, FlowIn.contents (contentsAt s.flows t n) t (.read nm' id k' since) = some c ∧ Shows w items start t nm' c := by
        intro nm' id k' since hm
        obtain ⟨g1, g2, since', g3⟩ := hg.reads nm' id k' since hm
        obtain ⟨-, y, hy, rfl, hky⟩ := hi.traces _ _ _ _ g3
        obtain ⟨c, hc, hs⟩ := ih y hy (by omega) k' nm' hky
        refine ⟨c, ?_, hs⟩
        show (if t < since then _ else _) = _
        rw [if_neg (by omega), hc]
      obtain ⟨cs, hcs⟩ : ∃ cs, flow.ins.mapM (FlowIn.contents (contentsAt s.flows t n) t) = some cs := by
        apply mapM_isSome
        intro i hm
        cases i with
        | input tm ups => exact ⟨_, rfl⟩
        | read nm' id k' since =>
          obtain ⟨c, hc, -⟩ := hread _ _ _ _ hm
          exact ⟨c, hc⟩
      obtain ⟨hlen, hat⟩ := mapM_some hcs
      have hlt : k < (flow.run cs).length := by
        rw [h5, (hi.itemsOk _ _ h3).run, ← h4]
        exact (List.getElem?_eq_some_iff.1 hk).1
      have hck : (flow.run cs)[k]? = some (flow.run cs)[k] := List.getElem?_eq_getElem hlt
      refine ⟨(flow.run cs)[k], ?_, ?_⟩
      · rw [hunf, hcs]
        exact hck
      · refine .program (x := (x.1, it)) (k := k) (cs := cs) h3 (by rw [← h4]; exact hk) (hlen.trans h6.len) ?_ ?_ (by rw [← h5]; exact hck)
        · intro j n' hj
          obtain ⟨tm, hu⟩ := h6.inp j n' hj
          obtain ⟨b, hb, he⟩ := hat j _ hu
          rw [hb, ← he]
          show some (accum _ t) = _
          rw [accum_fed]
        · intro j m c hj hc
          obtain ⟨id, k', since, hu⟩ := h6.tr j m hj
          obtain ⟨b, hb, he⟩ := hat j _ hu
          obtain ⟨c', hc', hs⟩ := hread _ _ _ _ (List.mem_of_getElem? hu)
          rw [hc', ← hb, hc] at he
          cases he
          exact hs
    | generated =>
      simp only [ho] at hkd
      obtain ⟨h1, h2, h3, h4, r, tm, h5, h6⟩ := hkd
      obtain ⟨rfl, rfl⟩ := single h1
      refine ⟨fun d => (w.rows r).count d, ?_, .generated (hpub (by rw [ho]; simp)) h3 h5⟩
      rw [hunf, h6, h4, ← accum_rows]
      rfl
    | clock =>
      simp only [ho] at hkd
      obtain ⟨h1, h2, h3, h4, h5, tm, h6⟩ := hkd
      obtain ⟨rfl, rfl⟩ := single h2
      refine ⟨fun d => if start ≤ t ∧ d = w.clockRow t then 1 else 0, ?_, ?_⟩
      swap
      · have hp := hpub (by rw [ho]; simp)
        rw [h1] at hp ⊢
        exact .clock hp
      rw [hunf, h6, h4, ← accum_clock start (s.epoch - start) t (by omega)]
      rfl

theorem Inv.peek {s : Server Name D} {items : List (Name × Item Name D)} {start : Nat} (hi : Inv w s items start) (hpos : 0 < s.epoch) (name : Name) {o : Option (D → Int)} (h : s.peek w name = some o) : ∃ c, o = some c ∧ Shows w items start (s.epoch - 1) (w.canon name) c := by
  unfold Server.peek at h
  simp only [Option.map_eq_some_iff] at h
  obtain ⟨⟨id, k, since⟩, ht, rfl⟩ := h
  obtain ⟨h1, x, hx, rfl, hk⟩ := hi.traces _ _ _ _ ht
  obtain ⟨c, hc, hs⟩ := hi.contents (s.epoch - 1) le_rfl (by omega) s.flows.length x hx (hi.lt hx) k _ hk
  refine ⟨c, ?_, hs⟩
  simp only
  rw [if_pos (by omega), hc]

/-- The specification says one thing. -/
theorem Inv.shows_unique {s : Server Name D} {items : List (Name × Item Name D)} {start : Nat} (hi : Inv w s items start) {start' t : Nat} {nm : Name} {c c' : D → Int} (h : Shows w items start' t nm c) (h' : Shows w items start' t nm c') : c = c' := by
  induction h generalizing c' with
  | @program name x k cs c hx hk hl hin ht hc ih =>
    cases h' with
    | @program _ y k' cs' _ hy hk' hl' hin' ht' hc' =>
      obtain ⟨rfl, rfl⟩ := hi.place hx hy hk hk'
      have : cs = cs' := by
        apply List.ext_getElem?
        intro j
        by_cases hj : j < x.2.prog.imports.length
        · have e1 : cs[j]? = some (cs[j]'(by omega)) := List.getElem?_eq_getElem _
          have e2 : cs'[j]? = some (cs'[j]'(by omega)) := List.getElem?_eq_getElem _
          have e3 : x.2.prog.imports[j]? = some x.2.prog.imports[j] := List.getElem?_eq_getElem _
          generalize x.2.prog.imports[j] = i at e3
          cases i with
          | input n => rw [hin j n e3, hin' j n e3]
          | trace m => rw [e1, e2, ih j m _ e3 e1 (ht' j m _ e3 e2)]
        · rw [List.getElem?_eq_none (by omega), List.getElem?_eq_none (by omega)]
      subst this
      rw [hc] at hc'
      exact Option.some.inj hc'
    | generated hp => exact absurd ⟨x, hx, List.mem_of_getElem? hk⟩ hp
    | clock hp => exact absurd ⟨x, hx, List.mem_of_getElem? hk⟩ hp
  | @generated name r hp hc hr =>
    cases h' with
    | @program _ y k' cs' _ hy hk' hl' hin' ht' hc' => exact absurd ⟨y, hy, List.mem_of_getElem? hk'⟩ hp
    | generated _ _ hr' =>
      rw [hr] at hr'
      cases hr'
      rfl
    | clock => exact absurd rfl hc
  | clock hp =>
    cases h' with
    | @program _ y k' cs' _ hy hk' hl' hin' ht' hc' => exact absurd ⟨y, hy, List.mem_of_getElem? hk'⟩ hp
    | generated _ hc => exact absurd rfl hc
    | clock => rfl

theorem Inv.traces_iff {s : Server Name D} {items : List (Name × Item Name D)} {start : Nat} (hi : Inv w s items start) {nm : Name} : ((∃ v, s.traces nm = some v) ∨ Source w nm) ↔ Published items nm ∨ Source w nm := by
  constructor
  · rintro (⟨v, h⟩ | h)
    · exact hi.published_or h
    · exact .inr h
  · rintro (h | h)
    · exact .inl (hi.published h)
    · exact .inr h

theorem mem_importNames {imports : List (Src Name)} {nm : Name} : nm ∈ importNames w imports ↔ ∃ m, Src.trace m ∈ imports ∧ w.canon m = nm := by
  unfold importNames
  rw [List.mem_filterMap]
  constructor
  · rintro ⟨i, hi, he⟩
    cases i with
    | input n => cases he
    | trace m => exact ⟨m, hi, Option.some.inj he⟩
  · rintro ⟨m, hm, he⟩
    exact ⟨_, hm, congrArg some he⟩

theorem sum_shards (a c n : Nat) : ((List.range n).map fun i => if a = i then c else 0).sum = if a < n then c else 0 := by
  induction n with
  | zero => simp
  | succ n ih =>
    rw [List.range_succ, List.map_append, List.sum_append, ih]
    by_cases h : a = n
    · subst h
      simp
    · by_cases h' : a < n
      · simp [h, h', Nat.lt_succ_of_lt h']
      · have : ¬ a < n + 1 := by omega
        simp [h, h', this]

theorem shards_perm {α : Type*} [DecidableEq α] (l : List α) (f : α → Nat) (n : Nat) (h : ∀ a ∈ l, f a < n) : ((List.range n).flatMap fun i => l.filter fun a => f a = i).Perm l := by
  rw [List.perm_iff_count]
  intro a
  rw [List.count_flatMap]
  have : (List.count a ∘ fun i => l.filter fun a => decide (f a = i)) = fun i => if f a = i then l.count a else 0 := by
    funext i
    simp only [Function.comp]
    by_cases hi : f a = i
    · rw [if_pos hi, List.count_filter (by simpa using hi)]
    · rw [if_neg hi]
      refine List.count_eq_zero.2 fun hm => ?_
      simpa [hi] using (List.mem_filter.1 hm).2
  rw [this, sum_shards]
  split
  · rfl
  · next hlt => exact (List.count_eq_zero.2 fun hm => hlt (h a hm)).symm

end DD.Srv
