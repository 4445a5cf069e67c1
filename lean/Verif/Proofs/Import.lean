import Verif.Spec.Import
import Verif.Proofs.SpineRun

/-! # Proofs about importing a trace -/

namespace DD
variable {D T R : Type*} [PartialOrder T] [OrderBot T] [DecidableLE T] [DecidableEq T]

/-- A queue of instructions that hands out the batches and ends at the frontier `u`, when `F` was announced. -/
def QueueOk : List T → List (Replay D T R) → List (ArrBatch D T R) → List T → Prop
  | F, [], bs, u => bs = [] ∧ F.Perm u
  | F, .batch b hint :: q, bs, u => ∃ bs', bs = b :: bs' ∧ (b.upds ≠ [] → ∃ c, hint = some c ∧ Beyond F c ∧ ∀ x ∈ b.upds, c ≤ x.2.1) ∧ QueueOk F q bs' u
  | F, .frontier G :: q, bs, u => FrontierLe F G ∧ QueueOk G q bs u

omit [OrderBot T] [DecidableEq T] in
theorem QueueOk.rest {u : List T} : ∀ {q : List (Replay D T R)} {F : List T} {bs : List (ArrBatch D T R)}, QueueOk F q bs u →
    ∀ b ∈ bs, ∀ x ∈ b.upds, Beyond F x.2.1
  | [], F, bs, h => by rw [h.1]; simp
  | .batch b hint :: q, F, bs, h => by
    obtain ⟨bs', rfl, h1, h2⟩ := h
    intro a ha x hx
    rcases List.mem_cons.1 ha with rfl | ha
    · obtain ⟨c, -, hc, hle⟩ := h1 (List.ne_nil_of_mem hx)
      exact beyond_mono hc (hle x hx)
    · exact QueueOk.rest h2 a ha x hx
  | .frontier G :: q, F, bs, h => fun b hb x hx => h.1 _ (QueueOk.rest h.2 b hb x hx)

omit [OrderBot T] [DecidableLE T] [DecidableEq T] in
theorem QueueOk.snoc {u : List T} {b : ArrBatch D T R} {hint : Option T} (h1 : b.desc.lower.Perm u) (h2 : FrontierLe b.desc.lower b.desc.upper)
    (h3 : b.upds ≠ [] → ∃ c, hint = some c ∧ Beyond b.desc.lower c ∧ ∀ x ∈ b.upds, c ≤ x.2.1) :
    ∀ {q : List (Replay D T R)} {F : List T} {bs : List (ArrBatch D T R)}, QueueOk F q bs u →
    QueueOk F (q ++ [.batch b hint, .frontier b.desc.upper]) (bs ++ [b]) b.desc.upper
  | [], F, bs, h => by
    obtain ⟨rfl, hp⟩ := h
    have hb : ∀ q, Beyond b.desc.lower q → Beyond F q := fun q ⟨f, hf, hq⟩ => ⟨f, (h1.trans hp.symm).subset hf, hq⟩
    refine ⟨[], rfl, fun hne => ?_, fun q hq => hb q (h2 q hq), rfl, List.Perm.refl _⟩
    obtain ⟨c, e, hc, hle⟩ := h3 hne
    exact ⟨c, e, hb c hc, hle⟩
  | .batch a hint' :: q, F, bs, h => by
    obtain ⟨bs', rfl, g1, g2⟩ := h
    exact ⟨bs' ++ [b], rfl, g1, QueueOk.snoc h1 h2 h3 g2⟩
  | .frontier G :: q, F, bs, h => ⟨h.1, QueueOk.snoc h1 h2 h3 h.2⟩

omit [OrderBot T] [DecidableLE T] [DecidableEq T] in
theorem ShownTiles.last {hi : List T} : ∀ {bs : List (ArrBatch D T R)} {lo : List T}, ShownTiles lo bs hi →
    match bs.getLast? with | none => lo.Perm hi | some b => b.desc.upper.Perm hi
  | [], lo, h => h
  | [b], lo, h => h.2.2.2
  | b :: c :: bs, lo, h => by
    have := ShownTiles.last (bs := c :: bs) h.2.2.2
    rw [List.getLast?_cons_cons]
    cases hl : (c :: bs).getLast? with
    | none => simp at hl
    | some x => rw [hl] at this; exact this

omit [DecidableLE T] [DecidableEq T] in
theorem queueOk_listen {u : List T} {shown : List (ArrBatch D T R)} (h : ShownTiles [⊥] shown u) : QueueOk [⊥] (Sharing.listenQueue shown) shown u := by
  have hmap : ∀ (l : List (ArrBatch D T R)) (q : List (Replay D T R)), QueueOk [⊥] q [] u →
      QueueOk [⊥] (l.map (fun b => Replay.batch b (some ⊥)) ++ q) l u := by
    intro l q hq
    induction l with
    | nil => exact hq
    | cons b l ih => exact ⟨l, rfl, fun _ => ⟨⊥, rfl, ⟨⊥, by simp, le_refl _⟩, fun _ _ => bot_le⟩, ih⟩
  have hl := h.last
  unfold Sharing.listenQueue
  cases hs : shown.getLast? with
  | none =>
    rw [hs] at hl
    have := hmap shown [] ⟨rfl, hl⟩
    rwa [List.append_nil] at this
  | some b =>
    rw [hs] at hl
    exact hmap shown _ ⟨fun q _ => ⟨⊥, by simp, bot_le⟩, rfl, hl⟩

omit [DecidableLE T] [DecidableEq T] [OrderBot T] in
theorem announced_append (F : List T) (l m : List (ImportEvent D T R)) : announced F (l ++ m) = announced (announced F l) m := by
  induction l generalizing F with
  | nil => rfl
  | cons e l ih => cases e <;> simp only [List.cons_append, announced, ih]

omit [DecidableLE T] [DecidableEq T] [OrderBot T] in
theorem logSound_append (F : List T) (l m : List (ImportEvent D T R)) : LogSound F (l ++ m) ↔ LogSound F l ∧ LogSound (announced F l) m := by
  induction l generalizing F with
  | nil => simp [LogSound, announced]
  | cons e l ih => cases e <;> simp only [List.cons_append, announced, LogSound, ih, and_assoc]

/-- What holds of an importing operator with queue `q`, that was meant to receive the batches `fed` up to the frontier `u`. -/
structure ImportInv (imp : Importer D T R) (q : List (Replay D T R)) (fed : List (ArrBatch D T R)) (u : List T) : Prop where
  sound : LogSound [⊥] imp.log
  caps : announced [⊥] imp.log = imp.capabilities
  parts : ∃ used skipped bs F, fed = used ++ skipped ++ bs ∧ QueueOk F q bs u ∧ sentBatches imp.log = used.filter (fun b => !b.upds.isEmpty) ∧
    (∀ b ∈ skipped, ∀ x ∈ b.upds, Beyond (imp.window.getD []) x.2.1) ∧
    ((imp.capabilities = F ∧ skipped = []) ∨ (imp.window.isSome ∧ imp.capabilities = [] ∧ FrontierLe (imp.window.getD []) F))

theorem ImportInv.consume {imp : Importer D T R} {i : Replay D T R} {q : List (Replay D T R)} {fed : List (ArrBatch D T R)} {u : List T}
    (h : ImportInv imp (i :: q) fed u) :
    ∃ imp', imp.consume i = some imp' ∧ imp'.window = imp.window ∧ imp'.live = imp.live ∧ ImportInv imp' q fed u := by
  obtain ⟨used, skipped, bs, F, e1, e2, e3, e4, e5⟩ := h.parts
  by_cases hskip : imp.window.isSome ∧ imp.capabilities = []
  · -- the instruction is skipped
    obtain ⟨hw, hc⟩ := hskip
    obtain ⟨limit, hlim⟩ := Option.isSome_iff_exists.1 hw
    have hF : FrontierLe limit F := by
      rcases e5 with ⟨a, -⟩ | ⟨-, -, a⟩
      · rw [hc] at a; rw [← a]; rintro q ⟨f, hf, -⟩; simp at hf
      · rw [hlim] at a; exact a
    refine ⟨imp, by simp [Importer.consume, hlim, hc], rfl, rfl, h.sound, h.caps, ?_⟩
    cases i with
    | frontier G =>
      exact ⟨used, skipped, bs, G, e1, e2.2, e3, e4, Or.inr ⟨hw, hc, fun q hq => by rw [hlim]; exact hF q (e2.1 q hq)⟩⟩
    | batch b hint =>
      obtain ⟨bs', rfl, g1, g2⟩ := e2
      refine ⟨used, skipped ++ [b], bs', F, by rw [e1]; simp, g2, e3, ?_, Or.inr ⟨hw, hc, by rw [hlim]; exact hF⟩⟩
      intro a ha x hx
      rcases List.mem_append.1 ha with ha | ha
      · exact e4 a ha x hx
      · rw [List.mem_singleton.1 ha] at hx
        obtain ⟨c, -, k1, k2⟩ := g1 (List.ne_nil_of_mem hx)
        rw [hlim]
        exact hF _ (beyond_mono k1 (k2 x hx))
  · have hcon : imp.consume i = imp.obey i := by
      unfold Importer.consume
      cases hw : imp.window with
      | none => rfl
      | some l =>
        have : imp.capabilities ≠ [] := fun hc => hskip ⟨by simp [hw], hc⟩
        simp [this]
    rw [hcon]
    obtain ⟨hcF, rfl⟩ : imp.capabilities = F ∧ skipped = [] := by
      rcases e5 with a | ⟨a, b, -⟩
      · exact a
      · exact absurd ⟨a, b⟩ hskip
    cases i with
    | frontier G =>
      have hdown : ∀ H : List T, (H = G ∨ H = []) → imp.downgrade H = some { imp with capabilities := H, log := imp.log ++ [.frontier H] } := by
        intro H hH
        have : H.all (lessEqual imp.capabilities) = true := by
          rw [List.all_eq_true]
          intro f hf
          rcases hH with rfl | rfl
          · rw [lessEqual_iff, hcF]; exact e2.1 f ⟨f, hf, le_refl _⟩
          · simp at hf
        simp only [Importer.downgrade, this, if_true]
      have hle : ∀ H : List T, (H = G ∨ H = []) → FrontierLe imp.capabilities H := by
        rintro H (rfl | rfl)
        · rw [hcF]; exact e2.1
        · rintro q ⟨f, hf, -⟩; simp at hf
      have hsent : ∀ H : List T, sentBatches (imp.log ++ [.frontier H]) = sentBatches imp.log := by
        intro H; simp [sentBatches]
      have hgo : ∀ H : List T, (H = G ∨ H = [] ∧ ∃ l, imp.window = some l ∧ FrontierLe l G) →
          ImportInv { imp with capabilities := H, log := imp.log ++ [.frontier H] } q fed u := by
        intro H hH
        have hH' : H = G ∨ H = [] := hH.imp id And.left
        refine ⟨(logSound_append _ _ _).2 ⟨h.sound, by rw [h.caps]; exact ⟨hle H hH', trivial⟩⟩, by rw [announced_append]; rfl, ?_⟩
        refine ⟨used, [], bs, G, e1, e2.2, by simp only; rw [hsent]; exact e3, by simp, ?_⟩
        rcases hH with rfl | ⟨rfl, l, hl, hlG⟩
        · exact Or.inl ⟨rfl, rfl⟩
        · exact Or.inr ⟨by simp [hl], rfl, by simp only [hl, Option.getD_some]; exact hlG⟩
      cases hw : imp.window with
      | none =>
        exact ⟨{ imp with capabilities := G, log := imp.log ++ [.frontier G] }, by simp only [Importer.obey, hw]; rw [hdown G (Or.inl rfl), hw], hw, rfl, hgo G (Or.inl rfl)⟩
      | some l =>
        by_cases hl : acLe l G
        · exact ⟨{ imp with capabilities := [], log := imp.log ++ [.frontier []] }, by simp only [Importer.obey, hw, if_pos hl]; rw [hdown [] (Or.inr rfl), hw], hw, rfl,
            hgo [] (Or.inr ⟨rfl, l, hw, (acLe_iff _ _).1 hl⟩)⟩
        · exact ⟨{ imp with capabilities := G, log := imp.log ++ [.frontier G] }, by simp only [Importer.obey, hw, if_neg hl]; rw [hdown G (Or.inl rfl), hw], hw, rfl, hgo G (Or.inl rfl)⟩
    | batch b hint =>
      obtain ⟨bs', rfl, g1, g2⟩ := e2
      by_cases hb : b.upds = []
      · have : imp.obey (.batch b hint) = some imp := by cases hint <;> simp [Importer.obey, hb]
        refine ⟨imp, this, rfl, rfl, h.sound, h.caps, used ++ [b], [], bs', F, by rw [e1]; simp, g2, ?_, by simp, Or.inl ⟨hcF, rfl⟩⟩
        rw [List.filter_append, e3]; simp [hb]
      · obtain ⟨c, rfl, k1, k2⟩ := g1 hb
        have hle : lessEqual imp.capabilities c = true := by rw [lessEqual_iff, hcF]; exact k1
        refine ⟨{ imp with log := imp.log ++ [.sent c b] }, by simp [Importer.obey, hb, hle], rfl, rfl,
          (logSound_append _ _ _).2 ⟨h.sound, by rw [h.caps, hcF]; exact ⟨k1, k2, trivial⟩⟩, by rw [announced_append]; exact h.caps,
          used ++ [b], [], bs', F, by rw [e1]; simp, g2, ?_, by simp, Or.inl ⟨hcF, rfl⟩⟩
        have : sentBatches (imp.log ++ [.sent c b]) = sentBatches imp.log ++ [b] := by simp [sentBatches]
        simp only
        rw [this, List.filter_append, e3]
        simp [hb]

theorem ImportInv.consumeAll {fed : List (ArrBatch D T R)} {u : List T} : ∀ {q : List (Replay D T R)} {imp : Importer D T R},
    ImportInv imp q fed u → ∃ imp', imp.consumeAll q = some imp' ∧ imp'.window = imp.window ∧ imp'.live = imp.live ∧ ImportInv imp' [] fed u
  | [], imp, h => ⟨imp, rfl, rfl, rfl, h⟩
  | i :: q, imp, h => by
    obtain ⟨imp1, h1, h2, h3, h4⟩ := h.consume
    obtain ⟨imp2, g1, g2, g3, g4⟩ := ImportInv.consumeAll h4
    exact ⟨imp2, by simp only [Importer.consumeAll, h1, g1], g2.trans h2, g3.trans h3, g4⟩

/-- What holds of all of them. -/
structure SharingInv (s : Sharing D T R) (fs : List (List (ArrBatch D T R))) (u : List T) : Prop where
  upper : s.writer.upper = u
  antichain : IsAntichainList u
  lenQ : s.writer.queues.length = s.importers.length
  lenF : fs.length = s.importers.length
  each : ∀ (i : Nat) imp q fed, s.importers[i]? = some imp → s.writer.queues[i]? = some q → fs[i]? = some fed → ImportInv imp q fed u

theorem SharingInv.inserted {s : Sharing D T R} {fs : List (List (ArrBatch D T R))} {u : List T} (h : SharingInv s fs u) {b : ArrBatch D T R} {hint : Option T}
    (h1 : b.desc.lower.Perm u) (h2 : FrontierLe b.desc.lower b.desc.upper) (h3 : ¬ b.desc.lower.Perm b.desc.upper) (h4 : IsAntichainList b.desc.upper)
    (h5 : b.upds ≠ [] → ∃ c, hint = some c ∧ Beyond b.desc.lower c ∧ ∀ x ∈ b.upds, c ≤ x.2.1) :
    ∃ w, s.writer.insert b hint = some w ∧ SharingInv { s with writer := w } (fs.map (· ++ [b])) b.desc.upper := by
  have hl : b.desc.lower.Nodup := (List.Perm.nodup_iff h1).2 (nodup_of_isAntichain h.antichain)
  refine ⟨_, by
    unfold TraceWriter.insert
    rw [if_pos (by rw [h.upper]; exact acEq_of_perm h1.symm), if_neg (fun he => h3 (perm_of_acEq he hl))], rfl, h4, by simpa using h.lenQ, by simpa using h.lenF, ?_⟩
  intro i imp q fed hi hq hf
  simp only [List.getElem?_map, Option.map_eq_some_iff] at hq hf
  obtain ⟨q0, hq0, rfl⟩ := hq
  obtain ⟨f0, hf0, rfl⟩ := hf
  obtain ⟨a1, a2, used, skipped, bs, F, e1, e2, e3, e4, e5⟩ := h.each i imp q0 f0 hi hq0 hf0
  exact ⟨a1, a2, used, skipped, bs ++ [b], F, by rw [e1]; simp, QueueOk.snoc h1 h2 h5 e2, e3, e4, e5⟩

theorem SharingInv.step {s : Sharing D T R} {fs : List (List (ArrBatch D T R))} {u : List T} (h : SharingInv s fs u) {op : ShareOp D T R}
    {ops : List (ShareOp D T R)} (hl : LegalSharing u (op :: ops)) :
    ∃ s' fs' u', s.step op = some s' ∧ SharingInv s' fs' u' ∧ LegalSharing u' ops ∧ feeds u fs (op :: ops) = feeds u' fs' ops := by
  cases op with
  | insert b hint =>
    obtain ⟨⟨l1, l2, l3, l4, l5, l6⟩, l7⟩ := hl
    obtain ⟨w, w1, w2⟩ := h.inserted (hint := hint) l1 l2 l3 l4 (fun hne => by
      cases hint with
      | none => exact absurd l6 hne
      | some c => exact ⟨c, rfl, l6⟩)
    exact ⟨{ s with writer := w }, _, _, by simp only [Sharing.step, w1], w2, l7, rfl⟩
  | close v =>
    obtain ⟨⟨l1, l2⟩, l3, l4⟩ := hl
    by_cases hv : v.Perm u
    · refine ⟨s, fs, u, ?_, h, l3 hv, by simp only [feeds, if_pos hv]⟩
      simp only [Sharing.step, TraceWriter.sealTo]
      rw [if_pos (by rw [h.upper]; exact acEq_of_perm hv.symm)]
    · obtain ⟨w, w1, w2⟩ := h.inserted (b := ⟨⟨u, v, [⊥]⟩, []⟩) (hint := none) (List.Perm.refl _) l1 (fun hp => hv hp.symm) l2 (by simp)
      refine ⟨{ s with writer := w }, _, _, ?_, w2, l4 hv, by simp only [feeds, if_neg hv]⟩
      simp only [Sharing.step, TraceWriter.sealTo]
      rw [if_neg (by rw [h.upper]; intro he; exact hv (perm_of_acEq he (nodup_of_isAntichain h.antichain)).symm), h.upper, w1]
  | listen window shown =>
    obtain ⟨l1, l2⟩ := hl
    refine ⟨_, fs ++ [shown], u, rfl, ⟨h.upper, h.antichain, by simp [h.lenQ], by simp [h.lenF], ?_⟩, l2, rfl⟩
    intro i imp q fed hi hq hf
    simp only at hi hq
    by_cases hlt : i < s.importers.length
    · rw [List.getElem?_append_left hlt] at hi
      rw [List.getElem?_append_left (by rw [h.lenQ]; exact hlt)] at hq
      rw [List.getElem?_append_left (by rw [h.lenF]; exact hlt)] at hf
      exact h.each i imp q fed hi hq hf
    · rw [List.getElem?_append_right (by omega)] at hi
      rw [List.getElem?_append_right (by rw [h.lenQ]; omega)] at hq
      rw [List.getElem?_append_right (by rw [h.lenF]; omega)] at hf
      simp only [List.getElem?_singleton, Option.ite_none_right_eq_some, Option.some.injEq] at hi hq hf
      obtain ⟨-, rfl⟩ := hi
      obtain ⟨-, rfl⟩ := hq
      obtain ⟨-, rfl⟩ := hf
      exact ⟨trivial, rfl, [], [], shown, [⊥], rfl, queueOk_listen l1, rfl, by simp, Or.inl ⟨rfl, rfl⟩⟩
  | activate i =>
    cases hi : s.importers[i]? with
    | none => exact ⟨s, fs, u, by simp only [Sharing.step, hi], h, hl, rfl⟩
    | some imp =>
      by_cases hlive : imp.live
      · have hlt : i < s.importers.length := by
          by_contra hge; rw [List.getElem?_eq_none (by omega)] at hi; cases hi
        have hq : s.writer.queues[i]? = some (s.writer.queues.getD i []) := by
          rw [List.getD_eq_getElem?_getD, List.getElem?_eq_getElem (by rw [h.lenQ]; exact hlt)]; rfl
        have hf : fs[i]? = some (fs.getD i []) := by
          rw [List.getD_eq_getElem?_getD, List.getElem?_eq_getElem (by rw [h.lenF]; exact hlt)]; rfl
        obtain ⟨imp', c1, c2, c3, c4⟩ := (h.each i imp _ _ hi hq hf).consumeAll
        refine ⟨{ writer := { s.writer with queues := s.writer.queues.set i [] }, importers := s.importers.set i imp' }, fs, u,
          by simp only [Sharing.step, hi, hlive, if_true, c1], ⟨h.upper, h.antichain, by simp [h.lenQ], by simp [h.lenF], ?_⟩, hl, rfl⟩
        intro j imp2 q fed hj hqj hfj
        simp only at hj hqj
        by_cases hij : i = j
        · subst hij
          rw [List.getElem?_set_self (by omega)] at hj
          rw [List.getElem?_set_self (by rw [h.lenQ]; omega)] at hqj
          cases hj; cases hqj
          rw [hf] at hfj; cases hfj
          exact c4
        · rw [List.getElem?_set_ne hij] at hj hqj
          exact h.each j imp2 q fed hj hqj hfj
      · exact ⟨s, fs, u, by simp only [Sharing.step, hi, if_neg hlive], h, hl, rfl⟩
  | press i =>
    cases hi : s.importers[i]? with
    | none => exact ⟨s, fs, u, by simp only [Sharing.step, hi], h, hl, rfl⟩
    | some imp =>
      refine ⟨{ s with importers := s.importers.set i { imp with live := false } }, fs, u, by simp only [Sharing.step, hi],
        ⟨h.upper, h.antichain, by simp [h.lenQ], by simp [h.lenF], ?_⟩, hl, rfl⟩
      intro j imp2 q fed hj hqj hfj
      simp only at hj hqj
      by_cases hij : i = j
      · subst hij
        have hlt : i < s.importers.length := by
          by_contra hge; rw [List.getElem?_eq_none (by omega)] at hi; cases hi
        rw [List.getElem?_set_self (by omega)] at hj
        cases hj
        obtain ⟨a1, a2, a3⟩ := h.each i imp q fed hi hqj hfj
        exact ⟨a1, a2, a3⟩
      · rw [List.getElem?_set_ne hij] at hj
        exact h.each j imp2 q fed hj hqj hfj

theorem SharingInv.run : ∀ {ops : List (ShareOp D T R)} {s : Sharing D T R} {fs : List (List (ArrBatch D T R))} {u : List T}, SharingInv s fs u →
    LegalSharing u ops → ∃ s' u', s.run ops = some s' ∧ SharingInv s' (feeds u fs ops) u'
  | [], s, fs, u, h, _ => ⟨s, u, rfl, h⟩
  | op :: ops, s, fs, u, h, hl => by
    obtain ⟨s1, fs1, u1, h1, h2, h3, h4⟩ := h.step hl
    obtain ⟨s2, u2, g1, g2⟩ := SharingInv.run h2 h3
    exact ⟨s2, u2, by simp only [Sharing.run, h1, g1], by rw [h4]; exact g2⟩

end DD
