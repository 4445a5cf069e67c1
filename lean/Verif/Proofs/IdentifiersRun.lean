import Verif.Proofs.Identifiers

/-!
# Runs of identifiers
-/

namespace DD
variable {D T ι : Type*} [LinearOrder D] [PartialOrder T] [OrderBot T] [DecidableLE T] [DecidableEq T] [DecidableEq ι]

theorem identifiers_static {P : T → Prop} {κ : T → ι} (hκ : Stages P κ) (hash : Nat → D → Nat) {C : ι → Coll D} {us : Upds D T Int} (hC : Represents us fun q => C (κ q)) {S : Finset D}
    (hS : ∀ k r, weight (C k) r ≠ 0 → r ∈ S) {m : Nat} (hm : Spreads hash S m) (hmax : m < maxRound) : ∃ F : IdentifiersFlow D T, F.Runs hash fun _ => us := by
  have hκ' := hκ.rounds m
  obtain ⟨init, hinit, -⟩ := hκ.represents fun k => (C k).map fun r => (0, r)
  obtain ⟨initIn, hinitIn, -⟩ := hκ'.represents fun k => (C k.1).map fun r => (0, r)
  obtain ⟨hashed, hhashed, -⟩ := hκ'.represents fun k => hashedProposals hash ((C k.1).map fun r => (0, r)) (idIter hash (C k.1) k.2)
  obtain ⟨red, hred, hround⟩ := hκ'.represents_tidy fun k => Coll.reduce resolveCollisions (hashedProposals hash ((C k.1).map fun r => (0, r)) (idIter hash (C k.1) k.2))
  let res : Upds (Nat × D) (T × Nat) Int := (Msgs.map (fun x : Nat × (Nat × D) => x.2) (static (tidied red) 0)).upds
  have hres' : ∀ n, Msgs.map (fun x : Nat × (Nat × D) => x.2) (static (tidied red) n) = static res n := fun n => by
    simp only [res, static, Msgs.map, Msgs.eachMsg, Msgs.upds, List.map_cons, List.map_nil, List.flatMap_cons, List.flatMap_nil, List.append_nil]
  have hres : Represents res fun q => idIter hash (C (κ q.1)) (min q.2 m + 1) := by
    intro q d
    have h1 : Holds (fun n => (static (tidied red) n).upds) q (Coll.reduce resolveCollisions (hashedProposals hash ((C (κ q.1)).map fun r => (0, r)) (idIter hash (C (κ q.1)) (min q.2 m)))) := by
      simp only [upds_static]
      exact hred.holds q
    obtain ⟨n, -, h⟩ := C49_map (fun x : Nat × (Nat × D) => x.2) _ _ _ h1
    exact h d
  have hlt : ∀ u ∈ res, u.2.1.2 < maxRound := by
    intro u hu
    obtain ⟨ms, hms, hu⟩ := List.mem_flatMap.1 hu
    obtain ⟨ms', hms', rfl⟩ := List.mem_map.1 hms
    obtain ⟨v, hv, rfl⟩ := List.mem_map.1 hu
    have : v ∈ (static (tidied red) 0).upds := List.mem_flatMap.2 ⟨ms', hms', hv⟩
    rw [upds_static] at this
    exact (hround v this).2.trans_lt hmax
  have hnil : Represents ([] : Upds (Nat × D) T Int) fun _ => [] := fun _ _ => rfl
  obtain ⟨recv, hrun, hrecv⟩ := static_loop hnil hres hlt
  have hrecv' : Represents recv fun q => idIter hash (C (κ q.1)) (min q.2 m) := by
    refine hrecv.congr fun ⟨t, i⟩ => ?_
    cases i with
    | zero => exact Coll.Same.refl _
    | succ i =>
      show Coll.Same (idIter hash (C (κ t)) (min i m + 1)) (idIter hash (C (κ t)) (min (i + 1) m))
      by_cases hi : i + 1 ≤ m
      · rw [Nat.min_eq_left (by omega : i ≤ m), Nat.min_eq_left hi]
        exact Coll.Same.refl _
      · rw [Nat.min_eq_right (by omega), Nat.min_eq_right (by omega)]
        exact idIter_stable (hS _) hm (by omega)
  have hrun' : LoopRun (fun _ => iterateReceives []) (static res) fun _ => recv := by
    have e : ∀ n, (iterateReceives ([] : Msgs (Nat × D) T Int) (static res n)).upds = (iterateReceives (static [] n) (static res n)).upds := fun n => by
      simp [iterateReceives, Variable.new_from, Variable.set, Msgs.enter, static, Msgs.upds, Msgs.concat, Msgs.negate, Msgs.eachMsg, Msgs.results_in, Msgs.feedback]
      simp only [List.filterMap_cons, List.filterMap_nil]
      cases nextRound (⊥ : T × Nat) <;> cases nextRound ((⊥, 0) : T × Nat) <;> simp
    exact ⟨hrun.produces, hrun.timed, hrun.rounds, hrun.receives, fun n => e n ▸ hrun.sound n, fun n => e n ▸ hrun.delivers n⟩
  have hout : ∀ t, Holds (fun n => (iterateReturns (static res n)).upds) t (idIter hash (C (κ t)) (m + 1)) := fun t => by
    refine leave_holds (m := m) (fun n u hu _ => ?_) ?_
    · rw [upds_static] at hu
      obtain ⟨ms, hms, hu⟩ := List.mem_flatMap.1 hu
      obtain ⟨ms', hms', rfl⟩ := List.mem_map.1 hms
      obtain ⟨v, hv, rfl⟩ := List.mem_map.1 hu
      have : v ∈ (static (tidied red) 0).upds := List.mem_flatMap.2 ⟨ms', hms', hv⟩
      rw [upds_static] at this
      exact (hround v this).2
    · simp only [upds_static]
      have := hres.holds (t, m)
      rwa [Nat.min_self] at this
  obtain ⟨out, hout', -⟩ := hκ.represents fun k => ((idIter hash (C k) (m + 1)).concat ((C k).map fun r => (0, r))).map fun p => (p.2, hash p.1 p.2)
  refine ⟨⟨fun _ => init, fun _ => initIn, fun _ => recv, fun _ => hashed, static (tidied red), fun _ => out⟩, ?_, ?_, ?_, ?_, ?_, fun _ => List.prefix_rfl, tidy_static red, ?_⟩
  · exact op1_static hC hinit (fun _ _ h => h.map _) fun _ => Coll.Same.refl _
  · exact enters_static hinit hinitIn
  · have e : (IdentifiersFlow.result ⟨fun _ => init, fun _ => initIn, fun _ => recv, fun _ => hashed, static (tidied red), fun _ => out⟩ : Nat → Msgs (Nat × D) (T × Nat) Int) = static res := funext hres'
    rw [e]
    exact hrun'
  · exact op2_static hinitIn hrecv' hhashed (fun _ _ _ _ h h' => hashedProposals_same h h') fun _ => Coll.Same.refl _
  · show Op1 _ _ fun n => (static (tidied red) n).upds
    simp only [upds_static]
    exact op1_static hhashed hred (fun _ _ h => h.reduce _) fun _ => Coll.Same.refl _
  · rintro t a b ha hb
    have e : (IdentifiersFlow.result ⟨fun _ => init, fun _ => initIn, fun _ => recv, fun _ => hashed, static (tidied red), fun _ => out⟩ : Nat → Msgs (Nat × D) (T × Nat) Int) = static res := funext hres'
    rw [e] at ha
    exact (hout'.holds t).same ((((hout t).unique ha).concat ((hinit.holds t).unique hb)).map _)

end DD
