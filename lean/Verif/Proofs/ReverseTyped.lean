import Verif.Spec.ReverseTyped
import Verif.Proofs.ReverseSpec
import Verif.Proofs.ReverseFuel
import Verif.Props.Explain

/-!
# Explanations of programs that fit do not panic
-/

namespace DD.Ir.Ex
variable {N : Type*} {env : RevEnv N} {good : Target → List Value → List Value → Prop}

theorem DemandRows.list {k v n : Nat} {ok : List Value → List Value → Prop} {c : RowColl} (h : DemandRows k v n ok c) :
    ∃ deps : List Demand, c = deps.map Demand.row ∧ ∀ d ∈ deps, d.Shaped k v n ∧ Counted d.chain ∧ ok d.key d.val := by
  induction c with
  | nil => exact ⟨[], rfl, fun d hd => (by cases hd)⟩
  | cons r c ih =>
    obtain ⟨deps, h1, h2⟩ := ih fun x hx => h x (by simp [hx])
    obtain ⟨d, h3, h4⟩ := h r (by simp)
    exact ⟨d :: deps, by simp [h1, h3], by
      intro x hx
      rcases List.mem_cons.1 hx with rfl | hx
      · exact h4
      · exact h2 x hx⟩

theorem RecordRows.list {k v n : Nat} {ok : List Value → List Value → Prop} {c : RowColl} (h : RecordRows k v n ok c) :
    ∃ recs : List Record, c = recs.map Record.row ∧ ∀ d ∈ recs, d.Shaped k v n ∧ Counted d.chain ∧ ok d.key d.val := by
  induction c with
  | nil => exact ⟨[], rfl, fun d hd => (by cases hd)⟩
  | cons r c ih =>
    obtain ⟨deps, h1, h2⟩ := ih fun x hx => h x (by simp [hx])
    obtain ⟨d, h3, h4⟩ := h r (by simp)
    exact ⟨d :: deps, by simp [h1, h3], by
      intro x hx
      rcases List.mem_cons.1 hx with rfl | hx
      · exact h4
      · exact h2 x hx⟩

theorem mem_traced {deps : List Demand} {recs : List Record} {P : Record → Demand → Prop} {x : Demand} (h : x ∈ traced deps recs P) : x.toRecord ∈ recs := by
  obtain ⟨y, hy, rfl⟩ := List.mem_map.1 h
  exact (List.mem_product.1 (List.mem_filter.1 hy).1).2

theorem mem_tracedJoin {deps : List Demand} {ls rs : List Record} {P : Record → Record → Demand → Prop} {x : Demand × Demand} (h : x ∈ tracedJoin deps ls rs P) : x.1.toRecord ∈ ls ∧ x.2.toRecord ∈ rs := by
  obtain ⟨y, hy, rfl⟩ := List.mem_map.1 h
  exact List.mem_product.1 (List.mem_product.1 (List.mem_filter.1 hy).1).2

theorem asks_of {t : Target} {k v : Nat} {recs : List Record} (hs : env.shapeOf t = some (k, v)) (hr : ∀ d ∈ recs, d.Shaped k v t.depth ∧ Counted d.chain ∧ good t d.key d.val) {out : List Demand}
    (ho : ∀ x ∈ out, x.toRecord ∈ recs) : Asks env good t (out.map Demand.row) := by
  refine ⟨k, v, hs, fun r hr' => ?_⟩
  obtain ⟨d, hd, rfl⟩ := List.mem_map.1 hr'
  exact ⟨d, rfl, hr _ (ho d hd)⟩

variable (ht : Typed env good)
include ht

theorem input_of {t : Target} {k v : Nat} (hs : env.shapeOf t = some (k, v)) : ∃ recs : List Record, env.side t = some ⟨recs.map Record.row, (k, v), t.depth⟩ ∧
    ∀ d ∈ recs, d.Shaped k v t.depth ∧ Counted d.chain ∧ good t d.key d.val := by
  obtain ⟨recs, h1, h2⟩ := (ht.pairs t k v hs).list
  exact ⟨recs, side_iff.2 ⟨h1.symm, hs, rfl⟩, h2⟩

theorem shapePreserving_total {c : RowColl} {t : Target} {k v n : Nat} {ok : List Value → List Value → Prop} (hc : DemandRows k v n ok c) (hs : env.shapeOf t = some (k, v)) :
    ∃ side out, env.side t = some side ∧ shapePreservingLookup env.norm c side n = some out ∧ Asks env good t out := by
  obtain ⟨recs, h1, h2⟩ := input_of ht hs
  obtain ⟨deps, rfl, h3⟩ := hc.list
  exact ⟨_, _, h1, C72_concat env.norm deps recs k v _ n (fun d hd => (h3 d hd).1) (fun d hd => (h2 d hd).1), asks_of hs h2 fun x hx => mem_traced hx⟩

theorem route_total {c : RowColl} {t : Target} {k v n : Nat} {ok : List Value → List Value → Prop} (hc : DemandRows k v n ok c) (hs : env.shapeOf t = some (k, v)) (hok : t.depth = n → ∀ a b, ok a b → good t a b) :
    ∃ out, env.route c n t = some out ∧ Asks env good t out := by
  by_cases h : t.len = n
  · refine ⟨c, by rw [RevEnv.route, if_pos h], k, v, hs, fun r hr => ?_⟩
    rw [len_eq] at h
    obtain ⟨d, h1, h2, h3, h4⟩ := hc r hr
    exact ⟨d, h1, h ▸ h2, h3, hok h _ _ h4⟩
  · obtain ⟨side, out, h1, h2, h3⟩ := shapePreserving_total ht hc hs
    exact ⟨out, by rw [RevEnv.route, if_neg h, h1, Option.bind_some, h2], h3⟩

section
variable (hw : ScopeWF env.root) (hc : ScopeClosed env.root) (hfuel : ∀ (path : List Nat) (s : XScope N), scopeAt env.root path = some s → ∀ r ∈ refsOf s, ∃ t, env.resolve path r = some t)
variable {path : List Nat} {s : XScope N} (hs : scopeAt env.root path = some s)
include hfuel hs

theorem push_total {c : RowColl} {r : Ref} (hr : r ∈ refsOf s) {k v : Nat} {ok : List Value → List Value → Prop} (hc : DemandRows k v path.length ok c)
    (h : ∀ t, Names env.root path r t → env.shapeOf t = some (k, v) ∧ ∀ a b, ok a b → good t a b) :
    ∃ p, env.push path r c path.length = some p ∧ Asks env good p.1 p.2 := by
  obtain ⟨t, h1⟩ := hfuel path s hs r hr
  obtain ⟨h2, h3⟩ := h t (resolveRef_names h1)
  obtain ⟨out, h4, h5⟩ := route_total ht hc h2 fun _ => h3
  exact ⟨(t, out), by rw [RevEnv.push, h1, Option.bind_some, h4, Option.map_some], h5⟩

theorem emits_total {i : Nat} {node : XNode N} (hi : s.items[i]? = some (.op node)) {shape : Nat × Nat} (hn : OpTyped env good path i shape node) {dep : RowColl}
    (hd : DemandRows shape.1 shape.2 path.length (good (.site ⟨path, .op i⟩)) dep) : ∃ e, env.emits path shape dep node = some e ∧ ∀ p ∈ e, Asks env good p.1 p.2 := by
  have hmem : ∀ r ∈ node.refs, r ∈ refsOf s := fun r hr => mem_refsOf_item hi hr
  have hres : ∀ r ∈ node.refs, ∃ t k v, env.resolve path r = some t ∧ Names env.root path r t ∧ env.shapeOf t = some (k, v) := by
    intro r hr
    obtain ⟨t, h1⟩ := hfuel path s hs r (hmem r hr)
    obtain ⟨⟨k, v⟩, h2⟩ := ht.shapes path s r t hs (hmem r hr) (resolveRef_names h1)
    exact ⟨t, k, v, h1, resolveRef_names h1, h2⟩
  have hpush : ∀ r ∈ node.refs, Same env good path i shape r → ∀ c, DemandRows shape.1 shape.2 path.length (good (.site ⟨path, .op i⟩)) c →
      ∃ e, (env.push path r c path.length).map (fun p => [p]) = some e ∧ ∀ p ∈ e, Asks env good p.1 p.2 := by
    intro r hr hsame c hc
    obtain ⟨p, h1, h2⟩ := push_total ht hfuel hs (hmem r hr) hc fun t h => hsame t h
    exact ⟨[p], by rw [h1]; rfl, fun q hq => (by cases List.mem_singleton.1 hq; exact h2)⟩
  obtain ⟨deps, rfl, hdeps⟩ := hd.list
  cases node with
  | linear r ops =>
    have hr : r ∈ (Node.linear r ops : XNode N).refs := by simp [Node.refs]
    unfold OpTyped at hn
    split at hn
    · rename_i key val e1
      cases e1
      obtain ⟨t, k, v, h1, h2, h3⟩ := hres r hr
      obtain ⟨h4, h5⟩ := hn t k v h2 h3
      obtain ⟨recs, h6, h7⟩ := input_of ht h3
      obtain ⟨out, hj, ho⟩ : ∃ out, lossyLookup env.norm (deps.map Demand.row) ⟨recs.map Record.row, (k, v), t.depth⟩ shape path.length ⟨key, val⟩ = some out ∧ Asks env good t out :=
        ⟨_, C72_project env.norm deps recs k v shape.1 shape.2 _ path.length ⟨key, val⟩ h4 (fun d hd => (hdeps d hd).1) (fun d hd => (h7 d hd).1) fun r hr => h5 _ _ (h7 r hr).2.2,
          asks_of h3 h7 fun x hx => mem_traced hx⟩
      exact ⟨[(t, out)], by simp only [RevEnv.emits, h1, h6, Option.bind_some, hj, Option.map_some], fun p hp => by cases List.mem_singleton.1 hp; exact ho⟩
    · rename_i cond e1
      cases e1
      obtain ⟨h4, h5, h6⟩ := hn
      obtain ⟨e, h7, h8⟩ := hpush r hr h4 ((deps.filter fun d => ((denote env.norm [.tuple d.key, .tuple d.val] cond []).map Value.truthy).getD false).map Demand.row) fun x hx => by
        obtain ⟨d, hd, rfl⟩ := List.mem_map.1 hx
        exact ⟨d, rfl, hdeps d (List.mem_filter.1 hd).1⟩
      refine ⟨e, ?_, h8⟩
      simp only [RevEnv.emits]
      rw [C72_filter env.norm deps shape.1 shape.2 path.length cond h5 (fun d hd => (hdeps d hd).1) fun d hd => h6 _ _ (hdeps d hd).2.2, Option.bind_some, h7]
    · rename_i e1; cases e1
      exact hpush r hr hn _ hd
    · rename_i e1; cases e1
      exact hpush r hr hn _ hd
    · rename_i list e1
      cases e1
      obtain ⟨h0, hn⟩ := hn
      obtain ⟨t, k, v, h1, h2, h3⟩ := hres r hr
      obtain ⟨h4, h5, h5'⟩ := hn t k v h2 h3
      obtain ⟨recs, h6, h7⟩ := input_of ht h3
      rw [h4] at h6 h7
      obtain ⟨out, h8, h9⟩ := C72_flatmap_partial env.norm deps recs k v shape.1 path.length list h5 (fun d hd => h0 ▸ (hdeps d hd).1) (fun d hd => (h7 d hd).1) fun r hr => h5' _ _ (h7 r hr).2.2
      refine ⟨[(t, out.map Demand.row)], ?_, fun p hp => ?_⟩
      · simp only [RevEnv.emits, h1, h6, Option.bind_some]
        rw [show shape = (shape.1, 2) from Prod.ext rfl h0, h8]
        rfl
      · cases List.mem_singleton.1 hp
        refine ⟨k, v, h3, fun x hx => ?_⟩
        obtain ⟨y, hy, rfl⟩ := List.mem_map.1 hx
        obtain ⟨d, hd, r, hr, -, -, -, rfl⟩ := (h9 y).1 hy
        obtain ⟨⟨k1, k2, k3⟩, k4, k5⟩ := h7 r hr
        exact ⟨_, rfl, ⟨k1, k2, by rw [h4]; exact (hdeps d hd).1.2.2⟩, (hdeps d hd).2.1, k5⟩
    · exact hn.elim
    all_goals (rename_i e1; cases e1)
  | concat refs =>
    have : ∃ e, refs.mapM (fun r => (env.resolve path r).bind fun t => (env.side t).bind fun side => (shapePreservingLookup env.norm (deps.map Demand.row) side path.length).map fun c => (t, c)) = some e ∧
        ∀ p ∈ e, Asks env good p.1 p.2 := by
      have hn' : ∀ r ∈ refs, ∃ p : Target × RowColl, ((env.resolve path r).bind fun t => (env.side t).bind fun side => (shapePreservingLookup env.norm (deps.map Demand.row) side path.length).map fun c => (t, c)) = some p ∧
          Asks env good p.1 p.2 := by
        intro r hr
        obtain ⟨t, k, v, h1, h2, -⟩ := hres r hr
        have h3 := hn r hr t h2
        obtain ⟨side, out, h4, h5, h6⟩ := shapePreserving_total ht hd (show env.shapeOf t = some (shape.1, shape.2) from h3)
        exact ⟨(t, out), by rw [h1, Option.bind_some, h4, Option.bind_some, h5, Option.map_some], h6⟩
      clear hn hmem hres hpush hi
      induction refs with
      | nil => exact ⟨[], rfl, fun p hp => (by cases hp)⟩
      | cons r refs ih =>
        obtain ⟨e, h1, h2⟩ := ih fun r hr => hn' r (by simp [hr])
        obtain ⟨p, h3, h4⟩ := hn' r (by simp)
        refine ⟨p :: e, by rw [List.mapM_cons, h3, h1]; rfl, fun q hq => ?_⟩
        rcases List.mem_cons.1 hq with rfl | hq
        · exact h4
        · exact h2 q hq
    simpa only [RevEnv.emits] using this
  | arrange r => simpa only [RevEnv.emits] using hpush r (by simp [Node.refs]) hn _ hd
  | inspect r label => simpa only [RevEnv.emits] using hpush r (by simp [Node.refs]) hn _ hd
  | reduce r reducer =>
    obtain ⟨t, k, v, h1, h2, h3⟩ := hres r (by simp [Node.refs])
    obtain ⟨recs, h6, h7⟩ := input_of ht h3
    obtain ⟨out, hj, ho⟩ : ∃ out, keyedLookup env.norm (deps.map Demand.row) ⟨recs.map Record.row, (k, v), t.depth⟩ shape path.length (decide (reducer = .min)) = some out ∧ Asks env good t out :=
      ⟨_, C72_reduce env.norm deps recs k v shape.1 shape.2 _ path.length _ (fun d hd => (hdeps d hd).1) (fun d hd => (h7 d hd).1), asks_of h3 h7 fun x hx => mem_traced hx⟩
    exact ⟨[(t, out)], by simp only [RevEnv.emits, h1, h6, Option.bind_some, hj, Option.map_some], fun p hp => by cases List.mem_singleton.1 hp; exact ho⟩
  | join l r proj =>
    obtain ⟨lt, k, v, a1, a2, a3⟩ := hres l (by simp [Node.refs])
    obtain ⟨rt, k', w, b1, b2, b3⟩ := hres r (by simp [Node.refs])
    obtain ⟨rfl, h4, h5, h6⟩ := hn lt rt k v k' w a2 b2 a3 b3
    obtain ⟨ls, a4, a5⟩ := input_of ht a3
    obtain ⟨rs, b4, b5⟩ := input_of ht b3
    have hj := C72_join env.norm deps ls rs k' v w shape.1 shape.2 _ _ path.length proj h4 h5 (fun d hd => (hdeps d hd).1) (fun d hd => (a5 d hd).1) (fun d hd => (b5 d hd).1)
      fun a ha b hb hk => by
        have := h6 a.key a.val b.val (a5 a ha).2.2 (by rw [hk]; exact (b5 b hb).2.2)
        exact this
    obtain ⟨out, hj, ho, ho'⟩ : ∃ out, joinLookup env.norm (deps.map Demand.row) ⟨ls.map Record.row, (k', v), lt.depth⟩ ⟨rs.map Record.row, (k', w), rt.depth⟩ shape path.length proj = some out ∧
        Asks env good lt out.1 ∧ Asks env good rt out.2 := by
      refine ⟨_, hj, ?_, ?_⟩
      · refine ⟨k', v, a3, fun x hx => ?_⟩
        obtain ⟨y, hy, rfl⟩ := List.mem_map.1 hx
        exact ⟨y.1, rfl, a5 _ (mem_tracedJoin hy).1⟩
      · refine ⟨k', w, b3, fun x hx => ?_⟩
        obtain ⟨y, hy, rfl⟩ := List.mem_map.1 hx
        exact ⟨y.2, rfl, b5 _ (mem_tracedJoin hy).2⟩
    refine ⟨[(lt, out.1), (rt, out.2)], by simp only [RevEnv.emits, a1, b1, a4, b4, Option.bind_some, hj, Option.map_some], fun p hp => ?_⟩
    simp only [List.mem_cons, List.not_mem_nil, or_false] at hp
    rcases hp with rfl | rfl
    · exact ho
    · exact ho'

omit ht hfuel hs in
/-- The set of demands is a set of demands. -/
theorem distinct_total {a : Addr} {k v : Nat} (hsh : env.shapes a = some (k, v)) {cs : List RowColl} (h : ∀ c ∈ cs, Asks env good (.site a) c) :
    ∃ out, distinctFull env.norm cs.flatten k (v + a.path.length + 1) = some out ∧ Asks env good (.site a) out := by
  have hrow : ∀ r ∈ cs.flatten, ∃ d : Demand, r = d.row ∧ d.Shaped k v a.path.length ∧ Counted d.chain ∧ good (.site a) d.key d.val := by
    intro r hr
    obtain ⟨c, hc, hrc⟩ := List.mem_flatten.1 hr
    obtain ⟨k', v', h1, h2⟩ := h c hc
    cases (show some (k', v') = some (k, v) from h1.symm.trans hsh)
    exact h2 r hrc
  obtain ⟨out, h1, -, h2⟩ := distinctFull_spec (norm := env.norm) (c := cs.flatten) (k := k) (v := v + a.path.length + 1) fun r hr => by
    obtain ⟨d, rfl, ⟨e1, e2, e3⟩, -⟩ := hrow r hr
    exact ⟨_, _, rfl, e1, by simp [e2, e3, Nat.add_assoc]⟩
  exact ⟨out, h1, k, v, hsh, fun r hr => hrow r ((h2 r).1 hr)⟩

end

/-- All that is in the state are demands. -/
structure Inv (env : RevEnv N) (good : Target → List Value → List Value → Prop) (st : RevState) : Prop where
  contribs : ∀ p ∈ st.contribs, Asks env good p.1 p.2
  demand : ∀ a c, st.demand a = some c → Asks env good (.site a) c
  binds : ∀ a c, st.binds a = some c → Asks env good (.site a) c

omit ht in
theorem Inv.of {st : RevState} (hi : Inv env good st) {t : Target} : ∀ c ∈ st.of t, Asks env good t c := by
  intro c hc
  obtain ⟨p, hp, rfl⟩ := List.mem_map.1 hc
  obtain ⟨h1, h2⟩ := List.mem_filter.1 hp
  obtain rfl : p.1 = t := by simpa using h2
  exact hi.contribs p h1

omit ht in
theorem update_asks {f : Addr → Option RowColl} {a : Addr} {x : RowColl} (hf : ∀ b c, f b = some c → Asks env good (.site b) c) (hx : Asks env good (.site a) x) :
    ∀ b c, Function.update f a (some x) b = some c → Asks env good (.site b) c := by
  intro b c h
  by_cases e : b = a
  · subst e
    rw [Function.update_self] at h
    cases h
    exact hx
  · rw [Function.update_of_ne e] at h
    exact hf b c h

theorem step_total (hc : ScopeClosed env.root) (hfuel : ∀ (path : List Nat) (s : XScope N), scopeAt env.root path = some s → ∀ r ∈ refsOf s, ∃ t, env.resolve path r = some t)
    {x : Step N} (hx : x ∈ stepsScope env.root []) {st : RevState} (hi : Inv env good st) : ∃ st', env.step st x = some st' ∧ Inv env good st' := by
  obtain ⟨path, s, hs, hx⟩ := mem_steps.1 hx
  have hcl := scopeClosed_iff.1 (scopeAt_closed hc hs)
  rcases hx with ⟨b, hb, rfl⟩ | ⟨i, node, hn, rfl⟩ | ⟨v, hv, rfl⟩
  · have hlt := hcl.2.1 b hb
    have hpos : 0 < path.length := by
      rcases path with - | ⟨c, path⟩
      · cases hs
        rw [ht.rootVars] at hlt
        cases hlt
      · simp
    obtain ⟨k, v, h1, h2⟩ := ht.vars path s b.var hs hlt
    obtain ⟨deps, h3, h4⟩ := h2.list
    have h5 := C72_variable env.norm deps k v path.length ht.norm (fun d hd => (h4 d hd).1) fun d hd => by
      obtain ⟨⟨-, -, h6⟩, h7, -⟩ := h4 d hd
      cases hch : d.chain with
      | nil => rw [hch] at h6; simp only [List.length_nil, Target.depth] at h6; omega
      | cons y outer =>
        obtain ⟨j, rfl, h8⟩ := h7 y (by rw [hch]; simp)
        exact ⟨j, outer, rfl, h8⟩
    obtain ⟨p, h6, h7⟩ := push_total ht hfuel hs (mem_refsOf_bind hb) (k := k) (v := v) (ok := good (.site ⟨path, .var b.var⟩)) (c := (deps.filterMap Demand.before).map Demand.row) (fun r hr => by
        obtain ⟨d', hd', rfl⟩ := List.mem_map.1 hr
        obtain ⟨d, hd, hbef⟩ := List.mem_filterMap.1 hd'
        obtain ⟨⟨e1, e2, e3⟩, e4, e5⟩ := h4 d hd
        unfold Demand.before at hbef
        split at hbef
        · rename_i j outer hch
          split at hbef
          · cases hbef
            rw [hch] at e3 e4
            refine ⟨_, rfl, ⟨e1, e2, by simpa [Target.depth] using e3⟩, ?_, e5⟩
            intro y hy
            rcases List.mem_cons.1 hy with rfl | hy
            · obtain ⟨j', hj', hlt'⟩ := e4 (.int j) (by simp)
              cases hj'
              exact ⟨_, rfl, by omega⟩
            · exact e4 y (by simp [hy])
          · cases hbef
        · cases hbef)
      fun t hn => by
        obtain ⟨g1, g2⟩ := ht.binds path s b t hs hb hn
        exact ⟨g1.trans h1, g2⟩
    refine ⟨{ st with contribs := st.contribs ++ [p] }, ?_, ⟨fun q hq => ?_, hi.demand, hi.binds⟩⟩
    · simp only [RevEnv.step, RevEnv.bindStep, show env.shapes ⟨path, .var b.var⟩ = some (k, v) from h1, Option.bind_some, h3, h5, h6, Option.map_some]
    · rcases List.mem_append.1 hq with hq | hq
      · exact hi.contribs q hq
      · cases List.mem_singleton.1 hq; exact h7
  · obtain ⟨shape, h1, h2⟩ := ht.ops path s i node hs hn
    simp only [RevEnv.step, RevEnv.site]
    split
    · exact ⟨st, rfl, hi⟩
    · obtain ⟨out, h3, h4⟩ := distinct_total (a := ⟨path, .op i⟩) (k := shape.1) (v := shape.2) h1 hi.of
      obtain ⟨k, v, h5, h6⟩ := id h4
      cases (show some (k, v) = some shape from h5.symm.trans h1)
      obtain ⟨e, h7, h8⟩ := emits_total ht hfuel hs hn h2 h6
      refine ⟨{ st with demand := Function.update st.demand ⟨path, .op i⟩ (some out), contribs := st.without (.site ⟨path, .op i⟩) ++ e },
        by rw [h1, Option.bind_some, h3, Option.bind_some, h7, Option.map_some], ⟨fun q hq => ?_, update_asks hi.demand h4, hi.binds⟩⟩
      rcases List.mem_append.1 hq with hq | hq
      · exact hi.contribs q (List.mem_of_mem_filter hq)
      · exact h8 q hq
  · have hvar := ht.vars path s v hs hv
    obtain ⟨k, w, h1, -⟩ := id hvar
    simp only [RevEnv.step, RevEnv.closeStep]
    split
    · exact ⟨_, rfl, ⟨hi.contribs, hi.demand, update_asks hi.binds hvar⟩⟩
    · obtain ⟨out, h3, h4⟩ := distinct_total (a := ⟨path, .var v⟩) (k := k) (v := w) h1 hi.of
      refine ⟨{ st with contribs := st.without (.site ⟨path, .var v⟩), binds := Function.update st.binds ⟨path, .var v⟩ (some out) }, by rw [show env.shapes ⟨path, .var v⟩ = some (k, w) from h1, Option.bind_some, h3, Option.map_some], ⟨fun q hq => hi.contribs q (List.mem_of_mem_filter hq), hi.demand, update_asks hi.binds h4⟩⟩

theorem steps_total (hc : ScopeClosed env.root) (hfuel : ∀ (path : List Nat) (s : XScope N), scopeAt env.root path = some s → ∀ r ∈ refsOf s, ∃ t, env.resolve path r = some t) :
    ∀ (σ : List (Step N)), (∀ x ∈ σ, x ∈ stepsScope env.root []) → ∀ {st : RevState}, Inv env good st → ∃ st', σ.foldlM env.step st = some st' ∧ Inv env good st'
  | [], _, st, hi => ⟨st, rfl, hi⟩
  | x :: σ, hσ, st, hi => by
    obtain ⟨st1, h1, h2⟩ := step_total ht hc hfuel (hσ x (by simp)) hi
    obtain ⟨st2, h3, h4⟩ := steps_total hc hfuel σ (fun y hy => hσ y (by simp [hy])) h2
    exact ⟨st2, by rw [List.foldlM_cons, h1]; exact h3, h4⟩

theorem reverse_total (hc : ScopeClosed env.root) (hfuel : ∀ (path : List Nat) (s : XScope N), scopeAt env.root path = some s → ∀ r ∈ refsOf s, ∃ t, env.resolve path r = some t)
    {first : Export N} (hfirst : env.root.exports.head? = some first) {query : RowColl}
    (hq : ∀ t k v, Names env.root [] first.value t → env.shapeOf t = some (k, v) → DemandRows k v 0 (fun a b => t.depth = 0 → good t a b) query) :
    ∃ st, env.reverse query = some st ∧ Inv env good st := by
  have hmem := mem_refsOf_export (List.mem_of_head? hfirst)
  obtain ⟨t, h1⟩ := hfuel [] env.root rfl _ hmem
  obtain ⟨⟨k, v⟩, h2⟩ := ht.shapes [] env.root _ t rfl hmem (resolveRef_names h1)
  obtain ⟨out, h3, h4⟩ := route_total ht (hq t k v (resolveRef_names h1) h2) h2 fun hd a b h => h hd
  obtain ⟨st, h5, h6⟩ := steps_total ht hc hfuel (stepsScope env.root []) (fun _ h => h) (st := ⟨fun _ => none, [(t, out)], fun _ => none⟩)
    ⟨fun p hp => (by cases List.mem_singleton.1 hp; exact h4), fun _ _ h => (by cases h), fun _ _ h => (by cases h)⟩
  refine ⟨st, ?_, h6⟩
  rw [RevEnv.reverse, hfirst, Option.bind_some, h1, Option.bind_some, h3, Option.bind_some, walkScope_steps, h5]

/-- All that is asked of a target are demands for its records. -/
theorem asked_asks (hc : ScopeClosed env.root) (hfuel : ∀ (path : List Nat) (s : XScope N), scopeAt env.root path = some s → ∀ r ∈ refsOf s, ∃ t, env.resolve path r = some t)
    {query : RowColl} (hq : ∀ first t k v, env.root.exports.head? = some first → Names env.root [] first.value t → env.shapeOf t = some (k, v) → DemandRows k v 0 (fun a b => t.depth = 0 → good t a b) query)
    {D : Addr → Option RowColl} (hD : ∀ a c, D a = some c → Asks env good (.site a) c) {t : Target} {c : RowColl} (h : AskedOf env query D t c) : Asks env good t c := by
  cases h with
  | query first _ h1 h2 h3 =>
    obtain ⟨⟨k, v⟩, h4⟩ := ht.shapes [] env.root _ t rfl (mem_refsOf_export (List.mem_of_head? h1)) h2
    obtain ⟨out, h5, h6⟩ := route_total ht (hq first t k v h1 h2 h4) h4 fun hd a b h => h hd
    obtain rfl := Option.some.inj (h5.symm.trans (route_iff.2 h3))
    exact h6
  | bind path s b shape c1 _ h1 h2 h3 h4 h5 h6 =>
    have hx : Step.bind path b ∈ stepsScope env.root [] := mem_steps.2 ⟨path, s, h1, .inl ⟨b, h2, rfl⟩⟩
    obtain ⟨st', h7, h8⟩ := step_total ht hc hfuel hx (st := ⟨fun _ => none, [], fun _ => none⟩) ⟨fun p hp => (by cases hp), fun _ _ h => (by cases h), fun _ _ h => (by cases h)⟩
    obtain ⟨e, he, hcs, -, -⟩ := step_ok h7 fun _ _ => rfl
    simp only [RevEnv.emission, h4, h5, Option.bind_some] at he
    have hm := (push_mem he t c).2 ⟨h3, h6⟩
    have : c ∈ ofList st'.contribs t := by
      rw [hcs t fun a ha => (by cases ha)]
      exact List.mem_append_right _ (mem_ofList.2 hm)
    exact h8.contribs _ (mem_ofList.1 this)
  | op path s i node r shape dep _ h1 h2 h3 h4 h5 h6 =>
    obtain ⟨shape', h7, h8⟩ := ht.ops path s i node h1 h2
    obtain rfl := Option.some.inj (h5.symm.trans h7)
    obtain ⟨k, v, h9, h10⟩ := hD _ _ h4
    cases (show some (k, v) = some shape from h9.symm.trans h5)
    obtain ⟨e, h11, h12⟩ := emits_total ht hfuel h1 h2 h8 h10
    exact h12 _ ((emits_traces h11 t c).2 ⟨r, h3, h6⟩)

omit ht in
/-- The next demand set of a source. -/
theorem nextSet_total {st : RevState} (hi : Inv env good st) {source dset : RowColl} {k a b : Nat} (hsh : env.sourceShapes[k]? = some (a, b)) (hs : RecordRows a b 0 (fun _ _ => True) source)
    (hd : RecordRows a b 0 (fun _ _ => True) dset) : ∃ out, env.nextSet st source dset k = some out ∧ out.Nodup ∧ RecordRows a b 0 (fun _ _ => True) out ∧
      ∀ x, x ∈ out ↔ x ∈ dset ∨ ∃ c ∈ ofList st.contribs (.source k), ∃ d : Demand, d.row ∈ c ∧ d.Shaped a b 0 ∧ x = (.tuple d.key, .tuple d.val) ∧ ∃ r : Record, r.row ∈ source ∧ r.Shaped a b 0 ∧ r.key = d.key := by
  have hfields : ∀ {c : RowColl}, RecordRows a b 0 (fun _ _ => True) c → ∀ r ∈ c, ∃ ks vs, r = (.tuple ks, .tuple vs) ∧ ks.length = a ∧ vs.length = b := by
    intro c h r hr
    obtain ⟨d, rfl, ⟨e1, e2, e3⟩, -⟩ := h r hr
    exact ⟨_, _, rfl, e1, by simp [e2, e3]⟩
  have hback : ∀ {ks vs : List Value}, ks.length = a → vs.length = b → ∃ d : Record, ((.tuple ks, .tuple vs) : Value × Value) = d.row ∧ d.Shaped a b 0 ∧ Counted d.chain ∧ True := fun {ks vs} h1 h2 =>
    ⟨⟨ks, vs, []⟩, by simp [Record.row], ⟨h1, h2, rfl⟩, fun x hx => (by cases hx), trivial⟩
  have hcase : ∃ comb, (if (st.of (.source k)).isEmpty then some dset else (sourceLookup env.norm (st.of (.source k)).flatten source a b).map fun semi => dset ++ semi) = some comb ∧
      RecordRows a b 0 (fun _ _ => True) comb ∧ ∀ x, x ∈ comb ↔ x ∈ dset ∨ ∃ c ∈ ofList st.contribs (.source k), ∃ d : Demand, d.row ∈ c ∧ d.Shaped a b 0 ∧ x = (.tuple d.key, .tuple d.val) ∧
        ∃ r : Record, r.row ∈ source ∧ r.Shaped a b 0 ∧ r.key = d.key := by
    by_cases he : st.of (.source k) = []
    · refine ⟨dset, by rw [if_pos (List.isEmpty_iff.2 he)], hd, fun x => ⟨.inl, fun h => h.elim id fun ⟨c, hc, _⟩ => ?_⟩⟩
      rw [show ofList st.contribs (.source k) = [] from he] at hc
      cases hc
    · have hrows : DemandRows a b 0 (good (.source k)) (st.of (.source k)).flatten := by
        intro r hr
        obtain ⟨c, hc, hrc⟩ := List.mem_flatten.1 hr
        obtain ⟨a', b', h1, h2⟩ := hi.of c hc
        cases (show some (a', b') = some (a, b) from h1.symm.trans hsh)
        exact h2 r hrc
      obtain ⟨deps, h1, h2⟩ := hrows.list
      obtain ⟨recs, rfl, h3⟩ := hs.list
      obtain ⟨semi, h4, h5⟩ := C72_source env.norm deps recs a b 0 fun d hd => (h2 d hd).1
      refine ⟨dset ++ semi, by rw [if_neg (fun h => he (List.isEmpty_iff.1 h)), h1, h4, Option.map_some], ?_, fun x => ?_⟩
      · intro r hr
        rcases List.mem_append.1 hr with hr | hr
        · exact hd r hr
        · obtain ⟨d, hd', rfl, -⟩ := (h5 r).1 hr
          exact hback (h2 d hd').1.1 (h2 d hd').1.2.1
      · rw [List.mem_append, h5]
        refine or_congr Iff.rfl ⟨?_, ?_⟩
        · rintro ⟨d, hd', rfl, r, hr, hk⟩
          have : d.row ∈ (st.of (.source k)).flatten := by rw [h1]; exact List.mem_map.2 ⟨d, hd', rfl⟩
          obtain ⟨c, hc, hdc⟩ := List.mem_flatten.1 this
          exact ⟨c, hc, d, hdc, (h2 d hd').1, rfl, r, List.mem_map.2 ⟨r, hr, rfl⟩, (h3 r hr).1, hk⟩
        · rintro ⟨c, hc, d, hdc, hds, rfl, r, hr, hrs, hk⟩
          have : d.row ∈ (st.of (.source k)).flatten := List.mem_flatten.2 ⟨c, hc, hdc⟩
          rw [h1] at this
          obtain ⟨d', hd', he⟩ := List.mem_map.1 this
          obtain ⟨r', hr', he'⟩ := List.mem_map.1 hr
          obtain ⟨e1, e2, e3⟩ := hds
          obtain ⟨f1, f2, f3⟩ := (h2 d' hd').1
          simp only [Demand.row, Prod.mk.injEq, Value.tuple.injEq] at he
          simp only [Record.row, Prod.mk.injEq, Value.tuple.injEq] at he'
          have hval : d'.val = d.val := (List.append_inj (List.append_inj he.2 (by simp [e2, e3, f2, f3])).1 (by omega)).1
          exact ⟨d', hd', by rw [he.1, hval], r', hr', by rw [he'.1, hk, he.1]⟩
  obtain ⟨comb, h1, h2, h3⟩ := hcase
  obtain ⟨out, h4, h5, h6⟩ := distinctFull_spec (norm := env.norm) (hfields h2)
  refine ⟨out, ?_, h5, fun r hr => h2 r ((h6 r).1 hr), fun x => (h6 x).trans (h3 x)⟩
  simp only [RevEnv.nextSet, hsh, Option.bind_some]
  rw [h1, Option.bind_some, h4]

end DD.Ir.Ex
