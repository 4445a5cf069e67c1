import Verif.Proofs.ArrangedRun

/-!
# What a reader of an arrangement is shown
-/

namespace DD
section coarse
variable {B M D T R : Type*} [Lattice T] [OrderBot T] [DecidableLE T] [DecidableEq T] [AddCommMonoid R] {ops : BatchOps B M T} {L : BatchLaws ops D R}

/-- Merges do not reach over boundaries. -/
theorem Coarse.split {G : List T} {l l' : List B} (h : Coarse L G l l') : ∀ {p' q' : List B}, l' = p' ++ q' → ∃ p q, l = p ++ q ∧ Coarse L G p p' ∧ Coarse L G q q' := by
  induction h with
  | refl l => exact fun {p' q'} e => ⟨p', q', e, .refl _, .refl _⟩
  | merge pre post b1 b2 b F h1 h2 =>
    intro p' q' e
    rcases List.append_eq_append_iff.1 e with ⟨a, rfl, e2⟩ | ⟨c, rfl, e2⟩
    · cases a with
      | nil =>
        refine ⟨pre, b1 :: b2 :: post, rfl, by simpa using Coarse.refl pre, ?_⟩
        have : q' = b :: post := by simpa using e2.symm
        rw [this]
        exact Coarse.merge [] post b1 b2 b F h1 h2
      | cons x a =>
        rw [List.cons_append, List.cons.injEq] at e2
        obtain ⟨rfl, rfl⟩ := e2
        exact ⟨pre ++ b1 :: b2 :: a, q', by simp, Coarse.merge pre a b1 b2 b F h1 h2, .refl _⟩
    · subst e2
      exact ⟨p', c ++ b1 :: b2 :: post, by simp, .refl _, Coarse.merge c post b1 b2 b F h1 h2⟩
  | trans l1 l2 l3 _ _ ih1 ih2 =>
    intro p' q' e
    obtain ⟨p2, q2, e2, c1, c2⟩ := ih2 e
    obtain ⟨p1, q1, e1, d1, d2⟩ := ih1 e2
    exact ⟨p1, q1, e1, .trans _ _ _ d1 c1, .trans _ _ _ d2 c2⟩

/-- A batch of the coarser sequence stands for a piece of the finer. -/
theorem Coarse.piece {G : List T} {l l' : List B} (h : Coarse L G l l') {b : B} (hb : b ∈ l') : ∃ p m q, l = p ++ m ++ q ∧ Coarse L G m [b] := by
  obtain ⟨p', q', rfl⟩ := List.append_of_mem hb
  obtain ⟨p, r, rfl, -, h2⟩ := h.split rfl
  obtain ⟨m, q, rfl, h3, -⟩ := h2.split (p' := [b]) (q' := q') rfl
  exact ⟨p, m, q, by simp, h3⟩

end coarse

section sent
variable {D T R : Type*} [LinearOrder D] [PartialOrder T] [OrderBot T] [DecidableLE T] [DecidableEq T] [LinearOrder (Lin T)] [AddCommMonoid R] [DecidableEq R]

theorem arrSent_nil : ∀ {bs : List (ArrBatch D T R)}, ArrSent [] bs → ∀ b ∈ bs, b.upds = []
  | [], _, b, hb => by cases hb
  | x :: bs, h, b, hb => by
    rcases h with ⟨c, rest, h, -⟩ | ⟨h1, h2⟩
    · cases h
    · rcases List.mem_cons.1 hb with rfl | hb
      · exact h1
      · exact arrSent_nil h2 b hb

/-- Batches sent first come first in the trace. -/
theorem arrSent_append : ∀ {bs : List (ArrBatch D T R)} {done rest : List (T × ArrBatch D T R)}, ArrSent (done ++ rest) bs →
    ∃ pre post, bs = pre ++ post ∧ ArrSent done pre ∧ ArrSent rest post ∧ pre.getLast? = (done.map Prod.snd).getLast?
  | bs, [], rest, h => ⟨[], bs, rfl, rfl, h, rfl⟩
  | [], d :: done, rest, h => by cases h
  | b :: bs, (c, x) :: done, rest, h => by
    rcases h with ⟨c', r, h1, h2, h3, h4, h5⟩ | ⟨h1, h2⟩
    · rw [List.cons_append, List.cons.injEq, Prod.mk.injEq] at h1
      obtain ⟨⟨rfl, rfl⟩, rfl⟩ := h1
      obtain ⟨pre, post, rfl, g1, g2, g3⟩ := arrSent_append h5
      refine ⟨x :: pre, post, rfl, Or.inl ⟨c, done, rfl, h2, h3, h4, g1⟩, g2, ?_⟩
      rw [List.map_cons, List.getLast?_cons, List.getLast?_cons, g3]
    · obtain ⟨pre, post, rfl, g1, g2, g3⟩ := arrSent_append (done := (c, x) :: done) h2
      refine ⟨b :: pre, post, rfl, Or.inr ⟨h1, g1⟩, g2, ?_⟩
      rw [List.getLast?_cons, g3, List.map_cons, List.getLast?_cons]
      rfl

/-- The next batch sent: those before it that are not sent are empty. -/
theorem arrSent_next : ∀ {bs : List (ArrBatch D T R)} {c : T} {x : ArrBatch D T R} {rest : List (T × ArrBatch D T R)}, ArrSent ((c, x) :: rest) bs →
    ∃ mid post, bs = mid ++ x :: post ∧ (∀ b ∈ mid, b.upds = []) ∧ (∀ u ∈ x.upds, c ≤ u.2.1) ∧ ArrSent rest post
  | [], c, x, rest, h => by cases h
  | b :: bs, c, x, rest, h => by
    rcases h with ⟨c', r, h1, h2, h3, h4, h5⟩ | ⟨h1, h2⟩
    · rw [List.cons.injEq, Prod.mk.injEq] at h1
      obtain ⟨⟨rfl, rfl⟩, rfl⟩ := h1
      exact ⟨[], bs, rfl, by simp, h4, h5⟩
    · obtain ⟨mid, post, rfl, g1, g2, g3⟩ := arrSent_next h2
      exact ⟨b :: mid, post, rfl, by
        intro y hy
        rcases List.mem_cons.1 hy with rfl | hy
        · exact h1
        · exact g1 y hy, g2, g3⟩

/-- Every update is sent, under a capability before it. -/
theorem arrSent_upds : ∀ {bs : List (ArrBatch D T R)} {rest : List (T × ArrBatch D T R)}, ArrSent rest bs → ∀ u ∈ bs.flatMap ArrBatch.upds, ∃ x ∈ rest, x.1 ≤ u.2.1
  | [], rest, h, u, hu => by cases hu
  | b :: bs, rest, h, u, hu => by
    rw [List.flatMap_cons, List.mem_append] at hu
    rcases h with ⟨c', r, rfl, h2, h3, h4, h5⟩ | ⟨h1, h2⟩
    · rcases hu with hu | hu
      · exact ⟨_, List.mem_cons_self, h4 u hu⟩
      · obtain ⟨x, hx, hxu⟩ := arrSent_upds h5 u hu
        exact ⟨x, List.mem_cons_of_mem _ hx, hxu⟩
    · rcases hu with hu | hu
      · rw [h1] at hu; cases hu
      · exact arrSent_upds h2 u hu

end sent

variable {B N D K V T R : Type*} [LinearOrder D] [LinearOrder K] [LinearOrder V] [Lattice T] [OrderBot T] [DecidableLE T] [DecidableEq T] [LinearOrder (Lin T)]
    [AddCommMonoid R] [DecidableEq R] {Y : TraceKind B N D K V T R}

/-- The side of a join that an arrangement is, given all batches it comes to hold. -/
def sideOf (Y : TraceKind B N D K V T R) (fin : List (ArrBatch D T R)) : JoinSide K V T R where
  upds := splitUpds Y.split fin
  since := [⊥]
  bound F := ∃ pre, pre <+: fin ∧ F.Perm (tileEnd pre)

theorem tiles_prefix {hi : List T} {fin p p' : List (ArrBatch D T R)} (h : ArrTiles [⊥] fin hi) (hp : p <+: p') (hp' : p' <+: fin) : FrontierLe (tileEnd p) (tileEnd p') := by
  obtain ⟨c, rfl⟩ := hp'
  obtain ⟨b, rfl⟩ := hp
  exact h.end_le

theorem sideOf_chain {hi : List T} {fin : List (ArrBatch D T R)} (h : ArrTiles [⊥] fin hi) : (sideOf Y fin).Chain where
  antichain := by
    rintro F ⟨pre, ⟨post, rfl⟩, hF⟩
    exact isAntichain_perm hF.symm h.antichain
  total := by
    rintro F G ⟨p, hp, hF⟩ ⟨p', hp', hG⟩
    rcases List.prefix_or_prefix_of_prefix hp hp' with hpp | hpp
    · exact Or.inl ((frontierLe_of_perm hF).trans ((tiles_prefix h hpp hp').trans (frontierLe_of_perm hG.symm)))
    · exact Or.inr ((frontierLe_of_perm hG).trans ((tiles_prefix h hpp hp).trans (frontierLe_of_perm hF.symm)))

theorem accum_splitUpds (f : D ≃ K × V) (bs : List (ArrBatch D T R)) (kv : K × V) (q : T) : accum (splitUpds f bs) kv q = accum (bs.flatMap ArrBatch.upds) (f.symm kv) q := by
  rw [← accum_map_equiv, List.map_flatMap]; rfl

theorem mirror_acc {L : TraceKindLaws Y} {bs : List (ArrBatch D T R)} {vs : List B} (h : List.Forall₂ (Mirror L) bs vs) (x : D) (q : T) :
    (vs.map fun b => L.laws.acc b x q).sum = accum (bs.flatMap ArrBatch.upds) x q := by
  induction h with
  | nil => rfl
  | cons h _ ih => rw [List.map_cons, List.sum_cons, ih, h.acc, List.flatMap_cons, accum_append]

theorem mirror_mem_right {L : TraceKindLaws Y} {bs : List (ArrBatch D T R)} {vs : List B} (h : List.Forall₂ (Mirror L) bs vs) : ∀ v ∈ vs, ∃ b ∈ bs, Mirror L b v := by
  induction h with
  | nil => simp
  | @cons b v _ _ h _ ih =>
    intro w hw
    rcases List.mem_cons.1 hw with rfl | hw
    · exact ⟨b, List.mem_cons_self, h⟩
    · obtain ⟨b', hb, hm⟩ := ih w hw
      exact ⟨b', List.mem_cons_of_mem _ hb, hm⟩

/-- What the reader's handle guarantees: the trace is compacted no farther than the reader allows, and the reader did not allow everything to be compacted away. -/
structure HandleHeld (a : Arranged B N D T R) (h : TraceHandle T) : Prop where
  logical : FrontierLe a.spine.logical_frontier (h.logical.getLastD [⊥])
  physical : FrontierLe a.spine.physical_frontier (h.physical.getLastD [⊥])
  some : h.physical ≠ []
  nonempty : ∀ L ∈ h.logical, L ≠ []

theorem HandleHeld.ne_nil {a : Arranged B N D T R} {h : TraceHandle T} (hh : HandleHeld a h) : a.spine.logical_frontier ≠ [] := by
  have : h.logical.getLastD [⊥] ≠ [] := by
    rcases List.eq_nil_or_concat' h.logical with e | ⟨l, x, e⟩
    · rw [e]; simp
    · rw [e, List.getLastD_concat]
      exact hh.nonempty x (by rw [e]; simp)
  intro e
  obtain ⟨x, hx⟩ := List.exists_mem_of_ne_nil _ this
  obtain ⟨y, hy, -⟩ := hh.logical x ⟨x, hx, le_refl _⟩
  rw [e] at hy; cases hy

theorem HandleHeld.at {a : Arranged B N D T R} {h : TraceHandle T} (hh : HandleHeld a h) {q : T} (hq : ∀ L ∈ h.logical, Beyond L q) : Beyond a.spine.logical_frontier q := by
  apply hh.logical
  rcases List.eq_nil_or_concat' h.logical with e | ⟨l, x, e⟩
  · rw [e]; exact ⟨⊥, by simp, bot_le⟩
  · rw [e, List.getLastD_concat]
    exact hq x (by rw [e]; simp)

theorem HandleHeld.through {a : Arranged B N D T R} {h : TraceHandle T} (hh : HandleHeld a h) {F : List T} (hF : ∀ P ∈ h.physical, FrontierLe P F) : FrontierLe a.spine.physical_frontier F := by
  refine hh.physical.trans ?_
  rcases List.eq_nil_or_concat' h.physical with e | ⟨l, x, e⟩
  · exact absurd e hh.some
  · rw [e, List.getLastD_concat]
    exact hF x (by rw [e]; simp)

/-- A trace presents its updates through the boundaries of its batches. -/
theorem AInv.shows {L : TraceKindLaws Y} {recv : Upds D T R} {F lg ph : List T} {done : List (T × ArrBatch D T R)} {a : Arranged B N D T R} {vs : List B}
    (h : AInv L recv F lg ph done a vs) {fin : List (ArrBatch D T R)} {hi : List T} (ht : ArrTiles [⊥] fin hi) (hfin : a.arr.writer.trace <+: fin)
    {handle : TraceHandle T} (hh : HandleHeld a handle) {G : List T} (hG : ∃ pre, pre <+: a.arr.writer.trace ∧ G.Perm (tileEnd pre)) :
    ShowsThrough (sideOf Y fin) handle G (a.through Y G) := by
  intro _ hP
  obtain ⟨pre, ⟨post, e⟩, hG⟩ := hG
  have hm := h.mirror
  rw [← e] at hm
  obtain ⟨vs1, vs2, rfl, m1, m2⟩ := forall₂_append_left hm
  obtain ⟨budget, hs⟩ := h.spine
  obtain ⟨bs, b1, b2⟩ := hs.through rfl (F := G) (by rw [mirror_boundary m1]; exact hG) (hh.through hP) hh.ne_nil
  have hok : ∀ b ∈ bs, L.laws.Ok b := fun b hb => (hs.mapBatches.ok hs.ok) b (batchesThrough_mem b1 b hb)
  obtain ⟨c, c1, c2, c3⟩ := L.read_ok bs hok
  have e2 : a.through Y G = c := by
    rw [Arranged.through, b1]
    show (Y.read bs).getD [] = c
    rw [c1]; rfl
  rw [e2]
  refine ⟨c2, fun k v q _ hq => ?_⟩
  rw [c3, b2 _ q (hh.at hq), mirror_acc m1]
  · obtain ⟨post', rfl⟩ := hfin
    subst_vars
    show _ = accum (before (splitUpds Y.split _) G) _ _
    rw [before_congr hG]
    rw [← e, List.append_assoc] at ht ⊢
    rw [before_tiles _ ht, accum_splitUpds]
  · intro b hb
    obtain ⟨x, hx, hxm⟩ := mirror_mem_right m1 b hb
    rw [hxm.since]; exact ⟨⊥, by simp, bot_le⟩

/-- The next message. -/
theorem legal_next {L : TraceKindLaws Y} {fin : List (ArrBatch D T R)} {hi : List T} (ht : ArrTiles [⊥] fin hi) {sent done : List (T × ArrBatch D T R)} (hs : ArrSent sent fin)
    {x : T × ArrBatch D T R} {y : T × B} (hxy : MirrorMsg L x y) (hd : done ++ [x] <+: sent) (frontier : List T) :
    ∃ c, Y.read [y.2] = some c ∧ LegalBatch (sideOf Y fin) (tileEnd (done.map Prod.snd)) frontier y.1 (Y.desc y.2).lower (Y.desc y.2).upper c ∧
      ¬ FrontierLe (Y.desc y.2).upper [⊥] ∧ (Y.desc y.2).upper = tileEnd ((done ++ [x]).map Prod.snd) ∧
      ∃ pre, pre <+: fin ∧ x.2 ∈ pre ∧ (Y.desc y.2).upper = tileEnd pre := by
  obtain ⟨rest, rfl⟩ := hd
  rw [List.append_assoc] at hs
  obtain ⟨pre, post, rfl, s1, s2, s3⟩ := arrSent_append hs
  obtain ⟨t, b⟩ := x
  obtain ⟨mid, post, rfl, k1, k2, k3⟩ := arrSent_next s2
  obtain ⟨c, hc, hsb⟩ := hxy.read
  have eg : tileEnd (done.map Prod.snd) = tileEnd pre := by rw [tileEnd, tileEnd, s3]
  have el : (Y.desc y.2).lower = b.desc.lower := by rw [L.desc_lower]; exact hxy.mirror.lower
  have eu : (Y.desc y.2).upper = b.desc.upper := by rw [L.desc_upper]; exact hxy.mirror.upper
  have e1 : pre ++ (mid ++ b :: post) = (pre ++ mid) ++ [b] ++ post := by simp
  have e2 : pre ++ (mid ++ b :: post) = pre ++ mid ++ ([b] ++ post) := by simp
  rw [e1] at ht ⊢
  obtain ⟨p1, p2, p3, p4, p5, p6, p7⟩ := ht.at.1.at.2
  have eub : tileEnd (pre ++ mid ++ [b]) = b.desc.upper := tileEnd_snoc _ _
  have hpm : (pre ++ mid) <+: ((pre ++ mid) ++ [b] ++ post) := ⟨[b] ++ post, by simp⟩
  have hpmb : (pre ++ mid ++ [b]) <+: ((pre ++ mid) ++ [b] ++ post) := ⟨post, rfl⟩
  have hw : within (sideOf Y ((pre ++ mid) ++ [b] ++ post)).upds (Y.desc y.2).lower (Y.desc y.2).upper = b.upds.map fun u => (Y.split u.1, u.2) := by
    rw [el, eu, ← eub, within_congr p1.symm (List.Perm.refl _)]
    refine (within_tiles Y.split ht).trans ?_
    simp [splitUpds]
  refine ⟨c, hc, ⟨?_, ?_, ⟨?_, ?_⟩, ?_, ?_, ?_, ?_⟩, ?_, ?_, pre ++ mid ++ [b], hpmb, by simp, by rw [eub, eu]⟩
  · rw [eg, el]
    refine FrontierLe.trans ?_ (frontierLe_of_perm p1)
    exact tiles_prefix ht ⟨mid, rfl⟩ hpm
  · rw [el, eu]; exact p2
  · exact ⟨pre ++ mid, hpm, by rw [el]; exact p1.symm⟩
  · exact ⟨pre ++ mid ++ [b], hpmb, by rw [eub, eu]⟩
  · rintro F ⟨p, hp, hF⟩
    rw [el, eu, ← eub]
    rcases List.prefix_or_prefix_of_prefix hp hpmb with hpp | hpp
    · rcases (List.prefix_concat_iff.1 hpp) with rfl | hpp
      · exact Or.inr (frontierLe_of_perm hF.symm)
      · exact Or.inl ((frontierLe_of_perm hF).trans ((tiles_prefix ht hpp hpm).trans (frontierLe_of_perm p1)))
    · exact Or.inr ((tiles_prefix ht hpp hp).trans (frontierLe_of_perm hF.symm))
  · intro u hu hg
    obtain ⟨v, hv, rfl⟩ := mem_splitUpds hu
    rw [eg] at hg
    rw [el]
    rw [List.append_assoc, List.append_assoc, List.flatMap_append, List.mem_append] at hv
    rcases hv with hv | hv
    · rw [List.append_assoc, List.append_assoc] at ht
      exact absurd hg (ht.at.1.complete v hv)
    · rw [List.flatMap_append, List.mem_append] at hv
      rcases hv with hv | hv
      · obtain ⟨b', hb', hv⟩ := List.mem_flatMap.1 hv
        rw [k1 b' hb'] at hv; cases hv
      · rw [List.append_assoc] at ht
        exact (beyond_perm p1 _).1 (ht.at.2.lower v hv)
  · rw [hw]; exact hsb
  · rw [hw]
    intro u hu
    obtain ⟨v, hv, rfl⟩ := List.mem_map.1 hu
    rw [hxy.time]
    exact k2 v hv
  · intro hle
    rw [eu, ← eub] at hle
    have := ArrTiles.end_lt (a := []) (b := pre ++ mid ++ [b]) (c := post) (by simpa using ht) (by simpa [tileEnd] using hle)
    simp at this
  · rw [List.map_append, List.map_singleton, tileEnd_snoc, eu]

/-- Updates that were not received are not before the capabilities of the messages that were not received. -/
theorem later_of_sent {fin : List (ArrBatch D T R)} {hi : List T} (ht : ArrTiles [⊥] fin hi) {done rest : List (T × ArrBatch D T R)} (hs : ArrSent (done ++ rest) fin)
    {G : List T} (hG : ∀ x ∈ rest, Beyond G x.1) : ∀ u ∈ (sideOf Y fin).upds, Beyond (tileEnd (done.map Prod.snd)) u.2.1 → Beyond G u.2.1 := by
  obtain ⟨pre, post, rfl, s1, s2, s3⟩ := arrSent_append hs
  intro u hu hg
  obtain ⟨v, hv, rfl⟩ := mem_splitUpds hu
  have eg : tileEnd (done.map Prod.snd) = tileEnd pre := by rw [tileEnd, tileEnd, s3]
  rw [eg] at hg
  rw [List.flatMap_append, List.mem_append] at hv
  rcases hv with hv | hv
  · exact absurd hg (ht.at.1.complete v hv)
  · obtain ⟨x, hx, hxv⟩ := arrSent_upds s2 v hv
    exact beyond_mono (hG x hx) hxv

/-- The batches of the trace. -/
theorem AInv.shown {L : TraceKindLaws Y} {recv : Upds D T R} {F lg ph : List T} {done : List (T × ArrBatch D T R)} {a : Arranged B N D T R} {vs : List B}
    (h : AInv L recv F lg ph done a vs) {fin : List (ArrBatch D T R)} {hi : List T} (ht : ArrTiles [⊥] fin hi) (hfin : a.arr.writer.trace <+: fin)
    {handle : TraceHandle T} (hh : HandleHeld a handle) :
    ∀ d ∈ a.shown Y, LegalShown (sideOf Y fin) handle d ∧ ∃ pre, pre <+: a.arr.writer.trace ∧ d.1.upper.Perm (tileEnd pre) := by
  intro d hd
  obtain ⟨b, hb, rfl⟩ := List.mem_map.1 hd
  obtain ⟨budget, hs⟩ := h.spine
  have hmono : ∀ {b1 b2 : List B}, vs = b1 ++ b2 → ∃ t1 t2, a.arr.writer.trace = t1 ++ t2 ∧ List.Forall₂ (Mirror L) t1 b1 ∧ List.Forall₂ (Mirror L) t2 b2 := by
    rintro b1 b2 rfl
    obtain ⟨t1, t2, e, m1, m2⟩ := forall₂_append_left (P := fun x y => Mirror L y x) (List.Forall₂.flip h.mirror)
    exact ⟨t1, t2, e, m1.flip, m2.flip⟩
  obtain ⟨p, m, q, e, hc⟩ := hs.mapBatches.piece hb
  obtain ⟨t1, t2, et, m1, m2⟩ := hmono (b1 := p ++ m) (b2 := q) e
  obtain ⟨tp, tm, rfl, mp, mm⟩ := forall₂_append_left (P := fun x y => Mirror L y x) (List.Forall₂.flip m1)
  have mp := mp.flip
  have mm := mm.flip
  have hcon := hs.contig
  rw [e] at hcon
  obtain ⟨e1, g1, -⟩ := Contig.append_iff.1 hcon
  have p1 := contig_boundary g1
  rw [mirror_boundary m1] at p1
  obtain ⟨e0, g0, g2⟩ := Contig.append_iff.1 g1
  have p0 := contig_boundary g0
  rw [mirror_boundary mp] at p0
  obtain ⟨g3, g4⟩ := hc.contig g2
  have hokb : L.laws.Ok b := hs.mapBatches.ok hs.ok b hb
  have ha0 : IsAntichainList e0 := by
    refine isAntichain_perm p0.symm ?_
    have := h.arr.tiles
    rw [et, List.append_assoc] at this
    exact this.antichain
  have pl : e0.Perm (Y.ops.lower b) := perm_of_acEq g3 (nodup_of_isAntichain ha0)
  have pu : (Y.ops.upper b).Perm (tileEnd (tp ++ tm)) := List.Perm.trans g4 p1
  have hpre : tp ++ tm <+: a.arr.writer.trace := ⟨t2, et.symm⟩
  have hpre0 : tp <+: a.arr.writer.trace := ⟨tm ++ t2, by rw [et]; simp⟩
  have hle : FrontierLe (Y.desc b).lower (Y.desc b).upper := by
    rw [L.desc_lower, L.desc_upper]
    refine (frontierLe_of_perm (pl.symm.trans p0)).trans (FrontierLe.trans ?_ (frontierLe_of_perm pu.symm))
    exact tiles_prefix ht ⟨tm, rfl⟩ (hpre.trans hfin)
  refine ⟨⟨⟨⟨tp, hpre0.trans hfin, by rw [L.desc_lower]; exact pl.symm.trans p0⟩, ⟨tp ++ tm, hpre.trans hfin, by rw [L.desc_upper]; exact pu⟩⟩, hle, ?_⟩, tp ++ tm, hpre,
    by rw [L.desc_upper]; exact pu⟩
  intro hz hP G hG h1 h2 kv q _ _
  have hz : Y.ops.len b = 0 := by simpa using hz
  have hphys := hh.through hP
  simp only [L.desc_lower, L.desc_upper] at h1 h2 hphys ⊢
  obtain ⟨insM, s1, s2, s3⟩ := hs.split
  rw [Spine.mapBatches, mapBatches_eq] at hb
  rcases List.mem_append.1 hb with hb | hb
  · -- Merged batches end before the permission.
    obtain ⟨p', m', q', e', hc'⟩ := s2.piece hb
    have hcon' := hs.contig
    rw [s1, e'] at hcon'
    obtain ⟨_, hcon', -⟩ := Contig.append_iff.1 hcon'
    obtain ⟨e1', k1, -⟩ := Contig.append_iff.1 hcon'
    obtain ⟨e0', k0, k2⟩ := Contig.append_iff.1 k1
    obtain ⟨k3, k4⟩ := hc'.contig k2
    have : FrontierLe (Y.ops.upper b) (Y.ops.lower b) := by
      rcases List.eq_nil_or_concat' m' with rfl | ⟨l, x, rfl⟩
      · have k2 : e0'.Perm e1' := k2
        have : IsAntichainList e0' := isAntichain_perm (List.Perm.trans k4 k2.symm) (L.laws.upper_antichain b hokb)
        have := perm_of_acEq k3 (nodup_of_isAntichain this)
        exact frontierLe_of_perm (List.Perm.trans k4 (k2.symm.trans this))
      · obtain ⟨mid, -, k5⟩ := Contig.append_iff.1 k2
        have hx := s3 x (by rw [e']; simp)
        exact (frontierLe_of_perm (List.Perm.trans k4 (List.Perm.symm k5.2))).trans (hx.trans hphys)
    rw [within_of_le _ (h2.trans this), accum_nil]
  · -- Other batches are those inserted.
    obtain ⟨q1, q2, e'⟩ := List.append_of_mem hb
    obtain ⟨u1, u2, eu', n1, n2⟩ := hmono (b1 := insM ++ q1) (b2 := b :: q2) (by rw [s1, e']; simp)
    cases n2 with
    | @cons x _ u2 _ hx n2 =>
      obtain ⟨post', rfl⟩ := hfin
      rw [eu'] at ht
      have et' : u1 ++ x :: u2 ++ post' = u1 ++ [x] ++ (u2 ++ post') := by simp
      have hnil : x.upds = [] := by
        have := hx.len
        rw [hz] at this
        exact List.length_eq_zero_iff.1 this.symm
      have hw : within (sideOf Y (a.arr.writer.trace ++ post')).upds (Y.ops.lower b) (Y.ops.upper b) = [] := by
        show within (splitUpds Y.split _) _ _ = _
        rw [eu', et', hx.lower, hx.upper]
        rw [et'] at ht
        have ht2 := ht
        obtain ⟨o1, -⟩ := ht.at.1.at.2
        rw [← tileEnd_snoc u1 x, within_congr o1.symm (List.Perm.refl _), within_tiles _ ht2]
        simp [splitUpds, hnil]
      have : within (sideOf Y (a.arr.writer.trace ++ post')).upds (Y.ops.lower b) G = [] := by
        rw [← List.subset_nil, ← hw]
        intro u hu
        rw [within, List.mem_filter, decide_eq_true_eq] at hu ⊢
        exact ⟨hu.1, hu.2.1, fun hb => hu.2.2 (h2 _ hb)⟩
      rw [this, accum_nil]

end DD
