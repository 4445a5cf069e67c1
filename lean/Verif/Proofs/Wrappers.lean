import Verif.Model.Wrappers
import Verif.Spec.CursorContract
import Verif.Proofs.CursorRun
import Verif.Proofs.Lattice

/-!
# Wrapped cursors present the contents with transformed updates
-/

namespace DD
variable {C S K V T T2 R : Type*} [LinearOrder K] [LinearOrder V]

/-- The contents with the updates of each key and value replaced. -/
def Contents.mapUpds (g : K → V → List (T × R) → List (T2 × R)) (t : Contents K V T R) : Contents K V T2 R :=
  t.map fun kv => (kv.1, kv.2.map fun vu => (vu.1, g kv.1 vu.1 vu.2))

/-- A position in the contents with the updates replaced. -/
def Pos.mapUpds (g : K → V → List (T × R) → List (T2 × R)) (p : Pos K V T R) : Pos K V T2 R :=
  ⟨Contents.mapUpds g p.keys, match p.keys with
    | [] => []
    | kv :: _ => p.vals.map fun vu => (vu.1, g kv.1 vu.1 vu.2)⟩

variable {g : K → V → List (T × R) → List (T2 × R)} {p : Pos K V T R} {t : Contents K V T R}

theorem start_mapUpds : (Pos.start t).mapUpds g = Pos.start (t.mapUpds g) := by
  cases t <;> simp [Pos.start, Pos.mapUpds, Contents.mapUpds]

theorem key_mapUpds : (p.mapUpds g).key? = p.key? := by
  obtain ⟨ks, vs⟩ := p
  cases ks <;> simp [Pos.key?, Pos.mapUpds, Contents.mapUpds]

theorem keys_mapUpds_ne : (p.mapUpds g).keys ≠ [] ↔ p.keys ≠ [] := by
  simp [Pos.mapUpds, Contents.mapUpds]

theorem val_mapUpds (h : p.keys ≠ []) : (p.mapUpds g).val? = p.val? := by
  obtain ⟨ks, vs⟩ := p
  cases ks with
  | nil => exact absurd rfl h
  | cons kv ks => cases vs <;> simp [Pos.val?, Pos.mapUpds]

theorem vals_mapUpds_ne (h : p.keys ≠ []) : (p.mapUpds g).vals ≠ [] ↔ p.vals ≠ [] := by
  obtain ⟨ks, vs⟩ := p
  cases ks with
  | nil => exact absurd rfl h
  | cons kv ks => simp [Pos.mapUpds]

theorem stepKey_mapUpds : (p.mapUpds g).stepKey = p.stepKey.mapUpds g := by
  rw [Pos.stepKey, Pos.stepKey, start_mapUpds]; simp [Pos.mapUpds, Contents.mapUpds]

theorem seekKey_mapUpds (k : K) : (p.mapUpds g).seekKey k = (p.seekKey k).mapUpds g := by
  rw [Pos.seekKey, Pos.seekKey, start_mapUpds]
  simp only [Pos.mapUpds, Contents.mapUpds, List.dropWhile_map]
  rfl

theorem stepVal_mapUpds : (p.mapUpds g).stepVal = p.stepVal.mapUpds g := by
  obtain ⟨ks, vs⟩ := p
  cases ks <;> simp [Pos.stepVal, Pos.mapUpds]

theorem seekVal_mapUpds (v : V) : (p.mapUpds g).seekVal v = (p.seekVal v).mapUpds g := by
  obtain ⟨ks, vs⟩ := p
  cases ks with
  | nil => simp [Pos.seekVal, Pos.mapUpds]
  | cons kv ks => simp only [Pos.seekVal, Pos.mapUpds, List.dropWhile_map]; rfl

theorem rewindVals_mapUpds : (p.mapUpds g).rewindVals = p.rewindVals.mapUpds g := by
  rw [Pos.rewindVals, Pos.rewindVals, start_mapUpds]; rfl

theorem in_mapUpds (h : p.In t) : (p.mapUpds g).In (t.mapUpds g) := by
  refine ⟨List.IsSuffix.map _ h.keys, ?_⟩
  have hv := h.vals
  obtain ⟨ks, vs⟩ := p
  cases ks with
  | nil => intro kv hkv; cases hkv
  | cons kv ks =>
    intro kv' hkv'
    simp only [Pos.mapUpds, Contents.mapUpds, List.map_cons, List.head?_cons, Option.mem_def, Option.some.injEq] at hkv'
    subst hkv'
    exact List.IsSuffix.map _ (hv kv rfl)

/-- The relation of wrapped cursors to positions. -/
def WrapRel (g : K → V → List (T × R) → List (T2 × R)) (Rel : C → Pos K V T R → Prop) (c : C) (p' : Pos K V T2 R) : Prop :=
  ∃ p, Rel c p ∧ p' = p.mapUpds g

/-- A cursor that passes on everything but the updates. -/
theorem Presents.wrap {ops : CursorOps C S K V T R} {s : S} {Rel : C → Pos K V T R → Prop} (h : Presents ops s t Rel) (ops' : CursorOps C S K V T2 R)
    (e1 : ops'.key_valid = ops.key_valid) (e2 : ops'.val_valid = ops.val_valid) (e3 : ops'.key = ops.key) (e4 : ops'.val = ops.val)
    (e5 : ops'.get_key = ops.get_key) (e6 : ops'.get_val = ops.get_val) (e7 : ops'.step_key = ops.step_key) (e8 : ops'.seek_key = ops.seek_key)
    (e9 : ops'.step_val = ops.step_val) (e10 : ops'.rewind_keys = ops.rewind_keys) (e11 : ops'.rewind_vals = ops.rewind_vals)
    (hm : ∀ c p kv ks vu vs, Rel c p → p.keys = kv :: ks → p.vals = vu :: vs → ops'.map_times s c = some (g kv.1 vu.1 vu.2)) :
    Presents ops' s (t.mapUpds g) (WrapRel g Rel) where
  inside := by rintro c _ ⟨p, hr, rfl⟩; exact in_mapUpds (h.inside c p hr)
  key_valid := by rintro c _ ⟨p, hr, rfl⟩; rw [e1, key_mapUpds]; exact h.key_valid c p hr
  get_key := by rintro c _ ⟨p, hr, rfl⟩; rw [e5, key_mapUpds]; exact h.get_key c p hr
  key := by rintro c _ ⟨p, hr, rfl⟩; rw [e3, key_mapUpds]; exact h.key c p hr
  val_valid := by rintro c _ ⟨p, hr, rfl⟩ hk; rw [keys_mapUpds_ne] at hk; rw [e2, val_mapUpds hk]; exact h.val_valid c p hr hk
  get_val := by rintro c _ ⟨p, hr, rfl⟩ hk; rw [keys_mapUpds_ne] at hk; rw [e6, val_mapUpds hk]; exact h.get_val c p hr hk
  val := by
    rintro c _ ⟨p, hr, rfl⟩ hk hv
    rw [keys_mapUpds_ne] at hk
    rw [vals_mapUpds_ne hk] at hv
    rw [e4, val_mapUpds hk]; exact h.val c p hr hk hv
  map_times := by
    rintro c _ ⟨p, hr, rfl⟩ hk hv
    rw [keys_mapUpds_ne] at hk
    rw [vals_mapUpds_ne hk] at hv
    obtain ⟨ks, vs⟩ := p
    cases ks with
    | nil => exact absurd rfl hk
    | cons kv ks =>
      cases vs with
      | nil => exact absurd rfl hv
      | cons vu vs =>
        rw [hm c _ kv ks vu vs hr rfl rfl]; simp [Pos.upds?, Pos.mapUpds]
  step_key := by
    rintro c _ ⟨p, hr, rfl⟩
    obtain ⟨c', h1, h2⟩ := h.step_key c p hr
    exact ⟨c', by rw [e7]; exact h1, _, h2, stepKey_mapUpds⟩
  seek_key := by
    rintro c _ k ⟨p, hr, rfl⟩
    obtain ⟨c', h1, h2⟩ := h.seek_key c p k hr
    exact ⟨c', by rw [e8]; exact h1, _, h2, seekKey_mapUpds k⟩
  step_val := by
    rintro c _ ⟨p, hr, rfl⟩ hk
    rw [keys_mapUpds_ne] at hk
    obtain ⟨c', h1, h2⟩ := h.step_val c p hr hk
    exact ⟨c', by rw [e9]; exact h1, _, h2, stepVal_mapUpds⟩
  rewind_keys := by
    rintro c _ ⟨p, hr, rfl⟩
    obtain ⟨c', h1, h2⟩ := h.rewind_keys c p hr
    exact ⟨c', by rw [e10]; exact h1, _, h2, start_mapUpds.symm⟩
  rewind_vals := by
    rintro c _ ⟨p, hr, rfl⟩ hk
    rw [keys_mapUpds_ne] at hk
    obtain ⟨c', h1, h2⟩ := h.rewind_vals c p hr hk
    exact ⟨c', by rw [e11]; exact h1, _, h2, rewindVals_mapUpds⟩

theorem SeeksVals.wrap {ops : CursorOps C S K V T R} {s : S} {Rel : C → Pos K V T R → Prop} (h : SeeksVals ops s Rel) (ops' : CursorOps C S K V T2 R)
    (e : ops'.seek_val = ops.seek_val) : SeeksVals ops' s (WrapRel g Rel) := by
  rintro c _ v ⟨p, hr, rfl⟩ hk
  rw [keys_mapUpds_ne] at hk
  obtain ⟨c', h1, h2⟩ := h c p v hr hk
  exact ⟨c', by rw [e]; exact h1, _, h2, seekVal_mapUpds v⟩

theorem enterOps_presents {ops : CursorOps C S K V T R} {s : S} {Rel : C → Pos K V T R → Prop} (h : Presents ops s t Rel) (f : T → T2) :
    Presents (enterOps f ops) s (t.mapUpds fun _ _ us => us.map fun u => (f u.1, u.2)) (WrapRel (fun _ _ us => us.map fun u => (f u.1, u.2)) Rel) := by
  refine h.wrap _ rfl rfl rfl rfl rfl rfl rfl rfl rfl rfl rfl ?_
  intro c p kv ks vu vs hr hk hv
  have := h.map_times c p hr (by simp [hk]) (by simp [hv])
  simp [enterOps, this, Pos.upds?, hv]

theorem enterAtOps_presents {ops : CursorOps C S K V T R} {s : S} {Rel : C → Pos K V T R → Prop} (h : Presents ops s t Rel) (f : K → V → T → T2) :
    Presents (enterAtOps f ops) s (t.mapUpds fun k v us => us.map fun u => (f k v u.1, u.2)) (WrapRel (fun k v us => us.map fun u => (f k v u.1, u.2)) Rel) := by
  refine h.wrap _ rfl rfl rfl rfl rfl rfl rfl rfl rfl rfl rfl ?_
  intro c p kv ks vu vs hr hk hv
  have h1 := h.map_times c p hr (by simp [hk]) (by simp [hv])
  have h2 := h.key c p hr
  have h3 := h.val c p hr (by simp [hk]) (by simp [hv])
  simp [enterAtOps, h1, h2, h3, Pos.upds?, Pos.key?, Pos.val?, hv, hk]

theorem frontierOps_presents [Lattice T] [DecidableLE T] {ops : CursorOps C S K V T R} {s : S} {Rel : C → Pos K V T R → Prop} (h : Presents ops s t Rel)
    (since until_ : List T) :
    Presents (frontierOps since until_ ops) s (t.mapUpds fun _ _ us => frontierTimes since until_ us) (WrapRel (fun _ _ us => frontierTimes since until_ us) Rel) := by
  refine h.wrap _ rfl rfl rfl rfl rfl rfl rfl rfl rfl rfl rfl ?_
  intro c p kv ks vu vs hr hk hv
  have := h.map_times c p hr (by simp [hk]) (by simp [hv])
  simp [frontierOps, this, Pos.upds?, hv]

theorem accum_flatMap_list {α A D : Type*} [DecidableEq D] [LE A] [DecidableLE A] [AddCommMonoid R] (l : List α) (f : α → Upds D A R) (d : D) (x : A) :
    accum (l.flatMap f) d x = (l.map fun a => accum (f a) d x).sum := by
  induction l with
  | nil => rfl
  | cons a l ih =>
    have : accum (f a ++ l.flatMap f) d x = accum (f a) d x + accum (l.flatMap f) d x := by simp [accum]
    rw [List.flatMap_cons, this, ih]; simp

/-- Accumulations of the contents with replaced updates. -/
theorem accum_mapUpds [LE T] [DecidableLE T] [LE T2] [DecidableLE T2] [AddCommMonoid R] (g : K → V → List (T × R) → List (T2 × R)) (t : Contents K V T R) (d : K × V) (q : T2)
    (q' : T) (h : ∀ kv ∈ t, ∀ vu ∈ kv.2, kv.1 = d.1 → vu.1 = d.2 →
      ((g d.1 d.2 vu.2).map fun u => if u.1 ≤ q then u.2 else 0).sum = (vu.2.map fun u => if u.1 ≤ q' then u.2 else 0).sum) :
    accum (t.mapUpds g).flatten d q = accum t.flatten d q' := by
  rw [Contents.flatten, Contents.mapUpds, List.flatMap_map, accum_flatMap_list, Contents.flatten, accum_flatMap_list]
  congr 1
  apply List.map_congr_left
  intro kv hkv
  simp only
  rw [List.flatMap_map, accum_flatMap_list, accum_flatMap_list]
  congr 1
  apply List.map_congr_left
  intro vu hvu
  simp only [accum, List.map_map]
  by_cases hd : (kv.1, vu.1) = d
  · have := h kv hkv vu hvu (by rw [← hd]) (by rw [← hd])
    subst hd
    simp only [Function.comp_def, true_and]
    exact this
  · simp only [Function.comp_def, hd, false_and, if_false]
    rw [List.sum_eq_zero, List.sum_eq_zero] <;> simp

end DD
