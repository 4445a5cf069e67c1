import Verif.Proofs.ReverseTyped
import Verif.Props.Reverse
import Verif.Proofs.LowerDecide

/-!
# C74: rounds of explanations of programs whose rows have the right shapes
-/

namespace DD

open Ir Ir.Ex

variable {N : Type*}

/-- **C74** (rounds). A round of an explanation of a program that fits its shapes does not panic. It demands of each operator the rows that are asked of it, each once; of each variable, in the next round, the rows that are asked of it; the demand set of a source
gets the records that are asked of the source and whose keys it has. And the next round is one of the same kind. -/
theorem C74_round (env : RevEnv N) (good : Target → List Value → List Value → Prop) (ht : Typed env good) (hw : ScopeWF env.root) (hc : ScopeClosed env.root)
    (hfuel : ∀ (path : List Nat) (s : XScope N), scopeAt env.root path = some s → ∀ r ∈ refsOf s, ∃ t, resolveRef env.root env.fuel path r = some t) (hex : env.root.exports ≠ []) (query : RowColl)
    (hq : ∀ first t k v, env.root.exports.head? = some first → Names env.root [] first.value t → env.shapeOf t = some (k, v) → DemandRows k v 0 (fun a b => t.depth = 0 → good t a b) query)
    (sources dsets : List RowColl) (hlen : dsets.length = sources.length)
    (hsrc : ∀ (k : Nat) source dset, sources[k]? = some source → dsets[k]? = some dset → ∃ a b, env.sourceShapes[k]? = some (a, b) ∧ RecordRows a b 0 (fun _ _ => True) source ∧ RecordRows a b 0 (fun _ _ => True) dset) :
    ∃ st next, env.round query sources dsets = some (st, next) ∧ next.length = sources.length ∧
      (∀ path s i node, scopeAt env.root path = some s → s.items[i]? = some (.op node) → ((st.demand ⟨path, .op i⟩).getD []).Nodup ∧
        ∀ r, r ∈ (st.demand ⟨path, .op i⟩).getD [] ↔ ∃ c, AskedOf env query st.demand (.site ⟨path, .op i⟩) c ∧ r ∈ c) ∧
      (∀ path s v, scopeAt env.root path = some s → v < s.vars.length → ∀ r, r ∈ (st.binds ⟨path, .var v⟩).getD [] ↔
        (∃ c, AskedOf env query st.demand (.site ⟨path, .var v⟩) c ∧ r ∈ c) ∨ (∀ c, ¬ AskedOf env query st.demand (.site ⟨path, .var v⟩) c) ∧ r ∈ env.vars ⟨path, .var v⟩) ∧
      (∀ (k : Nat) source dset out a b, sources[k]? = some source → dsets[k]? = some dset → next[k]? = some out → env.sourceShapes[k]? = some (a, b) → out.Nodup ∧ RecordRows a b 0 (fun _ _ => True) out ∧
        ∀ x, x ∈ out ↔ x ∈ dset ∨ ∃ c, AskedOf env query st.demand (.source k) c ∧ ∃ d : Demand, d.row ∈ c ∧ d.Shaped a b 0 ∧ x = (.tuple d.key, .tuple d.val) ∧
          ∃ r : Record, r.row ∈ source ∧ r.Shaped a b 0 ∧ r.key = d.key) ∧
      Typed { env with vars := fun a => (st.binds a).getD [] } good := by
  obtain ⟨first, hfirst⟩ : ∃ first, env.root.exports.head? = some first := by
    cases h : env.root.exports with
    | nil => exact absurd h hex
    | cons e es => exact ⟨e, rfl⟩
  obtain ⟨st, hr, hi⟩ := reverse_total ht hc hfuel hfirst fun t k v => hq first t k v hfirst
  have hasked : ∀ {t c}, AskedOf env query st.demand t c → Asks env good t c := fun h => asked_asks ht hc hfuel hq hi.demand h
  obtain ⟨L, hL, hLs, -, -⟩ := reverse_spec hw hc hr
  have hone : ∀ k (p : RowColl × RowColl), (sources.zip dsets)[k]? = some p → ∃ out a b, env.sourceShapes[k]? = some (a, b) ∧ env.nextSet st p.1 p.2 k = some out ∧ out.Nodup ∧ RecordRows a b 0 (fun _ _ => True) out ∧
      ∀ x, x ∈ out ↔ x ∈ p.2 ∨ ∃ c, AskedOf env query st.demand (.source k) c ∧ ∃ d : Demand, d.row ∈ c ∧ d.Shaped a b 0 ∧ x = (.tuple d.key, .tuple d.val) ∧ ∃ r : Record, r.row ∈ p.1 ∧ r.Shaped a b 0 ∧ r.key = d.key := by
    intro k p hp
    obtain ⟨h1, h2⟩ := List.getElem?_zip_eq_some.1 hp
    obtain ⟨a, b, h3, h4, h5⟩ := hsrc k p.1 p.2 h1 h2
    obtain ⟨out, h6, h7, h8, h9⟩ := nextSet_total hi h3 h4 h5
    refine ⟨out, a, b, h3, h6, h7, h8, fun x => (h9 x).trans (or_congr Iff.rfl ?_)⟩
    simp only [hLs k, mem_ofList, hL]
  obtain ⟨next, hnext⟩ : ∃ next, (sources.zip dsets).zipIdx.mapM (fun p => env.nextSet st p.1.1 p.1.2 p.2) = some next := by
    refine Option.isSome_iff_exists.1 (mapM_isSome_iff.2 fun p hp => ?_)
    obtain ⟨k, hk⟩ := List.getElem?_of_mem hp
    rw [List.getElem?_zipIdx, Option.map_eq_some_iff] at hk
    obtain ⟨q, hq', rfl⟩ := hk
    obtain ⟨out, a, b, -, h, -⟩ := hone k q hq'
    simp [h]
  have hforall := mapM_some_iff.1 hnext
  refine ⟨st, next, by rw [RevEnv.round, hr, Option.bind_some, hnext, Option.map_some], ?_, ?_, ?_, ?_, ?_⟩
  · rw [← hforall.length_eq, List.length_zipIdx, List.length_zip, hlen, Nat.min_self]
  · intro path s i node hs hn
    obtain ⟨⟨k, v⟩, h1, -⟩ := ht.ops path s i node hs hn
    refine C74_rows env hw hc query st hr path s i node hs hn k v h1 fun c hc' r hr' => ?_
    obtain ⟨k', v', h2, h3⟩ := hasked hc'
    cases (show some (k', v') = some (k, v) from h2.symm.trans h1)
    obtain ⟨d, h4, h5, -⟩ := h3 r hr'
    exact ⟨d, h5, h4⟩
  · intro path s v hs hv r
    obtain ⟨asked, h1, h2⟩ := C74_variables env hw hc query st hr path s v hs hv
    rcases h2 with ⟨rfl, h2⟩ | ⟨hne, shape, dep, h3, h4, h5⟩
    · rw [h2]
      refine ⟨fun h => .inr ⟨fun c h' => (by cases (h1 c).2 h'), h⟩, fun h => h.elim (fun ⟨c, h', _⟩ => (by cases (h1 c).2 h')) fun h => h.2⟩
    · rw [h5]
      obtain ⟨out, h6, -, h8⟩ := distinctFull_spec (norm := env.norm) (c := asked.flatten) (k := shape.1) (v := shape.2 + path.length + 1) fun r hr' => by
        obtain ⟨c, hc', hrc⟩ := List.mem_flatten.1 hr'
        obtain ⟨k', v', h6, h7⟩ := hasked ((h1 c).1 hc')
        cases (show some (k', v') = some shape from h6.symm.trans h3)
        obtain ⟨d, rfl, ⟨e1, e2, e3⟩, -⟩ := h7 r hrc
        exact ⟨_, _, rfl, e1, by simp [e2, e3, Target.depth, Nat.add_assoc]⟩
      obtain rfl := Option.some.inj (h6.symm.trans h4)
      rw [Option.getD_some, h8, List.mem_flatten]
      constructor
      · rintro ⟨c, hc', hr'⟩; exact .inl ⟨c, (h1 c).1 hc', hr'⟩
      · rintro (⟨c, hc', hr'⟩ | ⟨hno, hr'⟩)
        · exact ⟨c, (h1 c).2 hc', hr'⟩
        · obtain ⟨c, hc'⟩ := List.exists_mem_of_ne_nil _ hne
          exact (hno c ((h1 c).1 hc')).elim
  · intro k source dset out a b h1 h2 h3 h4
    have hz := List.getElem?_zip_eq_some (z := (source, dset)) |>.2 ⟨h1, h2⟩
    obtain ⟨out', a', b', h5, h6, h7, h8, h9⟩ := hone k _ hz
    obtain ⟨p, hp, hn⟩ := forall₂_get hforall k _ h3
    rw [List.getElem?_zipIdx, hz] at hp
    cases hp
    simp only [Nat.zero_add] at hn
    obtain rfl := Option.some.inj (h6.symm.trans hn)
    cases h5.symm.trans h4
    exact ⟨h7, h8, h9⟩
  · refine { ht with vars := fun path s v hs hv => ?_ }
    obtain ⟨asked, h1, h2⟩ := C74_variables env hw hc query st hr path s v hs hv
    rcases h2 with ⟨-, h2⟩ | ⟨-, shape, dep, -, -, h5⟩
    · exact hi.binds _ _ (by simp [h2])
    · exact hi.binds _ _ (by simp [h5])

/-! ### The hypotheses are met -/

namespace Ir.Ex

theorem rvScopes {path : List Nat} {s : XScope String} (h : scopeAt rvRoot path = some s) : (path = [] ∧ s = rvRoot) ∨ (path = [0] ∧ s = rvChild) := by
  rcases path with - | ⟨c, path⟩
  · cases h; exact .inl ⟨rfl, rfl⟩
  · rcases c with - | - | c
    · rcases path with - | ⟨c, path⟩
      · cases h; exact .inr ⟨rfl, rfl⟩
      · rcases c with - | - | c <;> cases h
    · cases h
    · simp [scopeAt, rvRoot] at h

theorem rvTyped : Typed rvEnv (fun _ a b => a.length = 1 ∧ b.length = 0) := by
  have hshape : ∀ t, (∀ k, t = .source k → k = 0) → rvEnv.shapeOf t = some (1, 0) := by
    intro t ht
    cases t with
    | site a => rfl
    | source k => cases ht k rfl; rfl
  have hsrc : ∀ path s r k, scopeAt rvRoot path = some s → r ∈ refsOf s → Names rvRoot path r (.source k) → k = 0 := by
    intro path s r k hs hr hn
    have h0 : ∀ (r : Ref), r ∈ [Ref.imp 0, .childExport 0 0, .loc 1] → Names rvRoot [] r (.source k) → k = 0 := by
      intro r hr hn
      simp only [List.mem_cons, List.not_mem_nil, or_false] at hr
      rcases hr with rfl | rfl | rfl
      · cases hn.det (.source 0); rfl
      · cases hn.det (.childExport [] 0 0 _ _ _ _ rfl rfl (.loc _ _))
      · cases hn.det (.loc _ _)
    rcases rvScopes hs with ⟨rfl, rfl⟩ | ⟨rfl, rfl⟩
    · refine h0 r ?_ hn
      rcases (by simpa [refsOf, rvRoot, Item.refs, Node.refs, rvChild, Source.refs] using hr : r = .imp 0 ∨ r = .childExport 0 0 ∨ r = .imp 0 ∨ r = .loc 1) with rfl | rfl | rfl | rfl <;> simp
    · rcases (by simpa [refsOf, rvChild, Item.refs, Node.refs] using hr : r = .imp 0 ∨ r = .var 0 ∨ r = .loc 0 ∨ r = .loc 1) with rfl | rfl | rfl | rfl
      · cases hn.det (.imp [] 0 0 _ _ _ _ rfl rfl (.source 0)); rfl
      · cases hn.det (.var _ _)
      · cases hn.det (.loc _ _)
      · cases hn.det (.loc _ _)
  refine ⟨fun i _ _ => rfl, rfl, fun path s r t hs hr hn => ⟨_, hshape t fun k e => hsrc path s r k hs hr (e ▸ hn)⟩, ?_, ?_, ?_, ?_⟩
  · intro t k v h
    have hkv : (k, v) = (1, 0) := by
      cases t with
      | site a => cases h; rfl
      | source j =>
        rcases j with - | j
        · cases h; rfl
        · simp [RevEnv.shapeOf, rvEnv] at h
    cases hkv
    have h0 : ∃ d : Record, Record.row ⟨[rvInt 5], [], []⟩ = d.row ∧ d.Shaped 1 0 0 ∧ Counted d.chain ∧ d.key.length = 1 ∧ d.val.length = 0 :=
      ⟨_, rfl, ⟨rfl, rfl, rfl⟩, fun x hx => (by cases hx), rfl, rfl⟩
    have h1 : ∀ i : Int, i < 2 ^ 63 → ∃ d : Record, Record.row ⟨[rvInt 5], [], [rvInt i]⟩ = d.row ∧ d.Shaped 1 0 1 ∧ Counted d.chain ∧ d.key.length = 1 ∧ d.val.length = 0 := fun i hi =>
      ⟨_, rfl, ⟨rfl, rfl, rfl⟩, fun x hx => ⟨i, List.mem_singleton.1 hx, hi⟩, rfl, rfl⟩
    intro r hr
    rcases t with ⟨⟨path, site⟩⟩ | j
    · rcases path with - | ⟨c, - | ⟨c', path⟩⟩
      · cases site <;> cases List.mem_singleton.1 hr <;> exact h0
      · rcases site with i | i
        · simp only [rvEnv, List.mem_cons, List.not_mem_nil, or_false] at hr
          rcases hr with rfl | rfl
          · exact h1 0 (by decide)
          · exact h1 1 (by decide)
        · cases List.mem_singleton.1 hr
          exact h1 1 (by decide)
      · cases site <;> cases hr
    · cases List.mem_singleton.1 hr
      exact h0
  · intro path s v hs hv
    rcases rvScopes hs with ⟨rfl, rfl⟩ | ⟨rfl, rfl⟩
    · cases hv
    · refine ⟨1, 0, rfl, fun r hr => ?_⟩
      cases List.mem_singleton.1 hr
      exact ⟨_, rfl, ⟨rfl, rfl, rfl⟩, fun x hx => ⟨1, List.mem_singleton.1 hx, by decide⟩, rfl, rfl⟩
  · intro path s b t hs hb hn
    refine ⟨hshape t fun k e => hsrc path s _ k hs (mem_refsOf_bind hb) (e ▸ hn), fun x y h => h⟩
  · intro path s i node hs hi
    refine ⟨(1, 0), rfl, ?_⟩
    have hrefs : ∀ r ∈ node.refs, ∀ t, Names rvRoot path r t → rvEnv.shapeOf t = some (1, 0) := fun r hr t hn => hshape t fun k e => hsrc path s r k hs (mem_refsOf_item hi hr) (e ▸ hn)
    rcases rvScopes hs with ⟨rfl, rfl⟩ | ⟨rfl, rfl⟩
    · rcases i with - | - | i <;> cases hi
      exact fun r hr t hn => hrefs r hr t hn
    · rcases i with - | - | i <;> cases hi
      · exact fun r hr t hn => hrefs r hr t hn
      · trivial

end Ir.Ex

/-- The hypotheses of `C74_round` are met. -/
example : ∃ st next, rvEnv.round rvQuery [[Record.row ⟨[rvInt 5], [], []⟩]] [[]] = some (st, next) ∧ Typed { rvEnv with vars := fun a => (st.binds a).getD [] } (fun _ a b => a.length = 1 ∧ b.length = 0) := by
  obtain ⟨st, next, h1, -, -, -, -, h2⟩ := C74_round rvEnv _ rvTyped rvRoot_wf rvRoot_closed (fun path s hs r hr => by
      refine resolve_total rvRoot_wf rvRoot_closed (by decide +kernel) hs hr) (by simp [rvEnv, rvRoot]) rvQuery (fun first t k v h1 h2 h3 => by
      cases h1
      cases h2.det (.loc _ _)
      cases h3
      intro r hr
      cases List.mem_singleton.1 hr
      exact ⟨_, rfl, ⟨rfl, rfl, rfl⟩, fun x hx => (by cases hx), fun _ => ⟨rfl, rfl⟩⟩)
    [[Record.row ⟨[rvInt 5], [], []⟩]] [[]] rfl fun k source dset h1 h2 => by
      rcases k with - | k
      · cases h1
        cases h2
        refine ⟨1, 0, rfl, fun r hr => ?_, fun r hr => (by cases hr)⟩
        cases List.mem_singleton.1 hr
        exact ⟨_, rfl, ⟨rfl, rfl, rfl⟩, fun x hx => (by cases hx), trivial⟩
      · simp at h1
  exact ⟨st, next, h1, h2⟩

end DD
