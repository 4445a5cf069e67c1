import Verif.Proofs.ServerPeek
import Mathlib.Data.List.Induction

/-!
# C76: the server of `interactive`

`Reach w s items`: commands lead to the server `s`, and `items` are the programs that were installed and not dropped since, each with what it was fed, by the answers to the commands alone. No program is called `clock` or as a generated source would be; without that, see the defects.
-/

namespace DD
open Srv

section
variable {Name R D : Type} [DecidableEq Name] [DecidableEq D] {w : World Name R D}

/-- No command panics. -/
theorem C76_runs_partial {s : Server Name D} {items : List (Name × Item Name D)} (h : Reach w s items) (cmd : Command Name D) (hc : cmd.Ok w) : ∃ s' ok, s.dispatch w cmd = some (s', ok) := by
  obtain ⟨start, hi⟩ := h.inv
  cases cmd with
  | install name prog =>
    obtain ⟨s', ok, -, he, -⟩ := hi.install name prog hc.1 hc.2.1 hc.2.2
    exact ⟨s', ok, he⟩
  | feed prog input row time diff =>
    obtain ⟨s', ok, he, -⟩ := hi.feed (w := w) prog input row time diff
    exact ⟨s', ok, he⟩
  | tick => exact ⟨_, _, rfl⟩
  | drop name => exact ⟨_, _, rfl⟩

/-- A program is installed if no program has its name, each of its imports is published or can be generated, and none of its exports is published. -/
theorem C76_install_partial {s s' : Server Name D} {items : List (Name × Item Name D)} (h : Reach w s items) (name : Name) (prog : Prog Name D) (hc : (Command.install name prog).Ok w) (hx : ∀ e ∈ prog.exports, e ≠ w.clock ∧ w.parse e = none) {ok : Bool} (hs : s.install w name prog = some (s', ok)) :
    ok = true ↔ (∀ it, (name, it) ∉ items) ∧ (∀ m, Src.trace m ∈ prog.imports → Published items (w.canon m) ∨ w.canon m = w.clock ∨ (w.parse (w.canon m)).isSome) ∧ ∀ e ∈ prog.exports, ¬ Published items e := by
  obtain ⟨start, hi⟩ := h.inv
  obtain ⟨s1, ok1, -, he, -, hiff⟩ := hi.install name prog hc.1 hc.2.1 hc.2.2
  rw [hs] at he
  cases he
  rw [hiff]
  have hS := hi.installSources (w := w) prog.imports
  have hx' : ∀ e ∈ prog.exports, ¬ Source w e := by
    rintro e hm (h | h)
    · exact (hx e hm).1 h
    · rw [(hx e hm).2] at h
      cases h
  refine and_congr Iff.rfl (and_congr ?_ ?_)
  · rw [hS.iff]
    exact forall_congr' fun m => forall_congr' fun hm => hi.traces_iff
  · refine forall_congr' fun e => forall_congr' fun hm => ?_
    constructor
    · intro hn hp
      obtain ⟨v, hv⟩ := hi.published hp
      rw [hS.keep e v hv] at hn
      cases hn
    · intro hp
      cases hv : (s.installSources w prog.imports).1.traces e with
      | none => rfl
      | some v =>
        rcases hS.only e v hv with h | h
        · rcases hi.published_or h with h | h
          · exact absurd h hp
          · exact absurd h (hx' e hm)
        · exact absurd h (hx' e hm)

/-- A row is taken if its time is not in the closed past and it is for an input of an installed program. -/
theorem C76_feed_partial {s s' : Server Name D} {items : List (Name × Item Name D)} (h : Reach w s items) (prog : Name) (input : Nat) (row : D) (time : Option Nat) (diff : Int) {ok : Bool} (hs : s.feed w prog input row time diff = some (s', ok)) :
    ok = true ↔ s.epoch ≤ time.getD s.epoch ∧ ∃ it, (w.canon prog, it) ∈ items ∧ Src.input input ∈ it.prog.imports := by
  obtain ⟨start, hi⟩ := h.inv
  obtain ⟨s1, ok1, he, -, hiff⟩ := hi.feed (w := w) prog input row time diff
  rw [hs] at he
  cases he
  exact hiff

/-- A program is dropped unless an installed program imports something that it publishes. If it is not dropped, nothing changes. -/
theorem C76_drop_partial {s : Server Name D} {items : List (Name × Item Name D)} (h : Reach w s items) (name : Name) :
    ((s.dropProgram w name).2 = false → (s.dropProgram w name).1 = s) ∧
    ∀ it, (w.canon name, it) ∈ items → ((s.dropProgram w name).2 = true ↔ ∀ y ∈ items, ∀ m, Src.trace m ∈ y.2.prog.imports → w.canon m ∉ it.prog.exports) := by
  obtain ⟨start, hi⟩ := h.inv
  obtain ⟨-, h1, h2⟩ := hi.drop (w := w) name
  refine ⟨h1, fun it hit => h2.trans ?_⟩
  obtain ⟨p, flow, hp, -, -, -, -, -, he, -⟩ := hi.of_item hit
  constructor
  · rintro ⟨p', hp', hno⟩ y hy m hm hex
    have := hi.program_eq hp'
    rw [hi.program_eq hp] at this
    cases this
    obtain ⟨py, fy, hpy, -, -, -, -, -, -, -, -, -, himp⟩ := hi.of_item (q := y.1) (it := y.2) hy
    exact hno (w.canon m) (by rw [he]; exact hex) _ hpy (by rw [show (y.1, py).2.imports = py.imports from rfl, himp]; exact mem_importNames.2 ⟨m, hm, rfl⟩)
  · intro hno
    refine ⟨p, hp, fun e hme x hx hin => ?_⟩
    obtain ⟨fx, -, hgx⟩ := hi.flow x hx
    have hk := hgx.kind
    unfold Kind at hk
    cases ho : x.2.origin with
    | program =>
      simp only [ho] at hk
      obtain ⟨-, -, itx, g3, -, -, -, -, g8⟩ := hk
      rw [g8] at hin
      obtain ⟨m, hm, hme'⟩ := mem_importNames.1 hin
      exact hno _ g3 m hm (by rw [hme', ← he]; exact hme)
    | generated =>
      simp only [ho] at hk
      obtain ⟨-, -, -, -, r, tm, -, g6⟩ := hk
      rw [hgx.names, g6] at hin
      simp [readName] at hin
    | clock =>
      simp only [ho] at hk
      obtain ⟨-, -, -, -, -, tm, g6⟩ := hk
      rw [hgx.names, g6] at hin
      simp [readName] at hin

/-- What an installed program imports is there, and so is what it publishes. -/
theorem C76_imports_partial {s : Server Name D} {items : List (Name × Item Name D)} (h : Reach w s items) {x : Name × Item Name D} (hx : x ∈ items) :
    (∀ m, Src.trace m ∈ x.2.prog.imports → ∃ o, s.peek w m = some o) ∧ ∀ e ∈ x.2.prog.exports, w.canon e = e → ∃ o, s.peek w e = some o := by
  obtain ⟨start, hi⟩ := h.inv
  have key : ∀ nm v, s.traces (w.canon nm) = some v → ∃ o, s.peek w nm = some o := by
    intro nm v hv
    exact ⟨_, by unfold Server.peek; rw [hv]; rfl⟩
  constructor
  · intro m hm
    obtain ⟨p, flow, hp, -, -, hg, -, -, -, -, -, -, himp⟩ := hi.of_item (q := x.1) (it := x.2) hx
    have hin : w.canon m ∈ p.imports := by
      rw [himp]
      exact mem_importNames.2 ⟨m, hm, rfl⟩
    have hin : w.canon m ∈ flow.ins.filterMap readName := by
      rw [← hg.names]
      exact hin
    obtain ⟨i, hii, hr⟩ := List.mem_filterMap.1 hin
    cases i with
    | input => cases hr
    | read nm id k since =>
      cases hr
      obtain ⟨-, -, s', hs'⟩ := hg.reads _ _ _ _ hii
      exact key m _ hs'
  · intro e he hc
    obtain ⟨v, hv⟩ := hi.published ⟨x, hx, he⟩
    exact key e v (by rw [hc]; exact hv)

/-- Each dataflow that runs is that of an installed program or of a source: what is dropped is released. -/
theorem C76_released_partial {s : Server Name D} {items : List (Name × Item Name D)} (h : Reach w s items) {id : Nat} {flow : Flow Name D} (hf : s.flows[id]? = some (some flow)) :
    ∃ q p, s.program q = some p ∧ p.id = id ∧ (p.origin = .program → ∃ it, (q, it) ∈ items) := by
  obtain ⟨start, hi⟩ := h.inv
  obtain ⟨⟨q, p⟩, hp, rfl⟩ := hi.owned id flow hf
  refine ⟨q, p, hi.program_eq hp, rfl, fun ho => ?_⟩
  obtain ⟨f, -, hg⟩ := hi.flow _ hp
  have hk := hg.kind
  unfold Kind at hk
  simp only [ho] at hk
  obtain ⟨-, -, it, h3, -⟩ := hk
  exact ⟨it, h3⟩

/-- What a peek shows: the contents of the collection at the last closed time, as the specification has it: what its program computes from the current contents of what it imports, down to what was fed and what is generated. -/
theorem C76_peek_partial {s : Server Name D} {items : List (Name × Item Name D)} (h : Reach w s items) (hpos : 0 < s.epoch) (name : Name) {o : Option (D → Int)} (hp : s.peek w name = some o) :
    ∃ c start, start ≤ s.epoch ∧ o = some c ∧ Shows w items start (s.epoch - 1) (w.canon name) c := by
  obtain ⟨start, hi⟩ := h.inv
  obtain ⟨c, h1, h2⟩ := hi.peek hpos name hp
  exact ⟨c, start, hi.started, h1, h2⟩

/-- After a tick, the clock that is read was started. -/
theorem C76_peek_tick_partial {s : Server Name D} {items : List (Name × Item Name D)} (h : Reach w s items) (name : Name) {o : Option (D → Int)} (hp : (s.tick w).peek w name = some o) :
    ∃ c start, start ≤ s.epoch ∧ o = some c ∧ Shows w items start s.epoch (w.canon name) c := by
  obtain ⟨start, hi⟩ := h.inv
  obtain ⟨c, h1, h2⟩ := hi.tick.peek (Nat.succ_pos _) name hp
  exact ⟨c, start, hi.started, h1, h2⟩

/-- The specification leaves no choice. -/
theorem C76_shows_unique_partial {s : Server Name D} {items : List (Name × Item Name D)} (h : Reach w s items) {start t : Nat} {nm : Name} {c c' : D → Int} (h1 : Shows w items start t nm c) (h2 : Shows w items start t nm c') : c = c' := by
  obtain ⟨_, hi⟩ := h.inv
  exact hi.shows_unique h1 h2

/-- After a tick the clock has one row, the time that the tick closed. -/
theorem C76_clock_partial {s : Server Name D} {items : List (Name × Item Name D)} (h : Reach w s items) (hc : w.canon w.clock = w.clock) (hp : ¬ Published items w.clock) {o : Option (D → Int)} (ho : (s.tick w).peek w w.clock = some o) :
    o = some fun d => if d = w.clockRow s.epoch then 1 else 0 := by
  obtain ⟨c, start, h1, rfl, h2⟩ := C76_peek_tick_partial h w.clock ho
  rw [hc] at h2
  have := C76_shows_unique_partial h h2 (.clock hp)
  rw [this]
  simp [h1]

/-- Each row of a generated source is generated by one worker. -/
theorem C76_shards (rows : List D) (peers : Nat) (h : 0 < peers) : ((List.range peers).flatMap (shard rows peers)).Perm rows := by
  have := (shards_perm rows.zipIdx (fun x => x.2 % peers) peers fun x _ => Nat.mod_lt _ h).map Prod.fst
  rw [List.map_flatMap] at this
  rw [List.zipIdx_map_fst] at this
  exact this

end

/-! ## Cases -/

namespace Srv

/-- Two recipes that are written in two ways. -/
def exWorld : World String Nat Nat where
  parse := fun s => if s = "iota:2" ∨ s = "iota:02" then some 2 else if s = "iota:3" then some 3 else none
  canonical := fun n => if n = 2 then "iota:2" else "iota:3"
  rows := List.range
  clock := "clock"
  clockRow := fun t => 100 + t

/-- A program that publishes the sum of its imports. -/
def exSum (imports : List (Src String)) (out : String) : Prog String Nat := ⟨imports, [out], fun cs => [fun d => (cs.map fun c => c d).sum]⟩

theorem exSum_ok (imports : List (Src String)) (out : String) (h : (imports.filter Src.isInput).Nodup) : (exSum imports out).Ok := ⟨fun _ => rfl, by simp [exSum], h⟩

/-- A run of commands; the last answer. -/
def runAll (w : World String Nat Nat) : List (Command String Nat) → Option (Server String Nat × List Bool) := fun cmds => cmds.foldl (fun acc cmd => acc.bind fun x => (x.1.dispatch w cmd).map fun y => (y.1, x.2 ++ [y.2])) (some (Server.new, []))

/-- The rows that a peek shows. -/
def shows (w : World String Nat Nat) (s : Server String Nat) (name : String) (rows : List Nat) : Option (List Int) := (s.peek w name).bind fun o => o.map fun c => rows.map c

theorem runAll_reach (w : World String Nat Nat) (cmds : List (Command String Nat)) (h : ∀ c ∈ cmds, c.Ok w) {s : Server String Nat} {oks : List Bool} (hs : runAll w cmds = some (s, oks)) : ∃ items, Reach w s items := by
  induction cmds using List.reverseRecOn generalizing s oks with
  | nil =>
    cases hs
    exact ⟨[], .new⟩
  | append_singleton cmds c ih =>
    unfold runAll at hs
    rw [List.foldl_append] at hs
    simp only [List.foldl_cons, List.foldl_nil, Option.bind_eq_some_iff, Option.map_eq_some_iff, Prod.mk.injEq] at hs
    obtain ⟨⟨s1, oks1⟩, h1, ⟨s2, ok⟩, h2, rfl, -⟩ := hs
    obtain ⟨items, hr⟩ := ih (fun c hc => h c (List.mem_append_left _ hc)) h1
    exact ⟨_, .step hr (h c (by simp)) h2⟩

/-- A run: one program adds its input, the clock and a generated source; another adds what that publishes and the same source by another name. A drop of the first is refused. -/
def exRun : List (Command String Nat) := [.install "a" (exSum [.input 0, .trace "clock", .trace "iota:02"] "x"), .install "b" (exSum [.trace "x", .trace "iota:2"] "y"), .feed "a" 0 7 none 3, .feed "a" 0 8 (some 2) 1, .tick, .drop "a", .feed "a" 0 7 (some 0) 1, .tick]

theorem exRun_ok : ∀ c ∈ exRun, c.Ok exWorld := by
  intro c hc
  simp only [exRun, List.mem_cons, List.not_mem_nil, or_false] at hc
  rcases hc with rfl | rfl | rfl | rfl | rfl | rfl | rfl | rfl
  · exact ⟨exSum_ok _ _ (by decide), by decide, by decide⟩
  · exact ⟨exSum_ok _ _ (by decide), by decide, by decide⟩
  all_goals trivial

/-- The run meets the hypotheses, and its last states show what was fed, the clock's row and the generated rows, those of `iota:2` twice. -/
example : ∃ s items, Reach exWorld s items ∧ 0 < s.epoch ∧ (runAll exWorld exRun).map Prod.snd = some [true, true, true, true, true, false, false, true] ∧ shows exWorld s "y" [0, 1, 7, 8, 100, 101, 102] = some [2, 2, 3, 0, 0, 1, 0] := by
  have h : (runAll exWorld exRun).isSome = true ∧ ((runAll exWorld exRun).map fun x => decide (0 < x.1.epoch)) = some true ∧ (runAll exWorld exRun).map Prod.snd = some [true, true, true, true, true, false, false, true] ∧ ((runAll exWorld exRun).bind fun x => shows exWorld x.1 "y" [0, 1, 7, 8, 100, 101, 102]) = some [2, 2, 3, 0, 0, 1, 0] := by
    decide +kernel
  obtain ⟨⟨s, oks⟩, hs⟩ := Option.isSome_iff_exists.1 h.1
  obtain ⟨items, hr⟩ := runAll_reach exWorld exRun exRun_ok hs
  rw [hs] at h
  exact ⟨s, items, hr, of_decide_eq_true (Option.some.inj h.2.1), by rw [hs]; exact h.2.2.1, h.2.2.2⟩

end Srv

/-- A program that is called `clock` is lost when the clock is started: it was accepted and never dropped, but is not fed any more; and when all programs were dropped, no program can publish what it did. -/
theorem C76_clock_name_defect : (runAll exWorld [.install "clock" (exSum [.input 0] "x"), .feed "clock" 0 7 none 1, .install "b" (exSum [.trace "clock"] "y"), .feed "clock" 0 7 none 1, .drop "b", .drop "clock", .drop "clock", .install "c" (exSum [.input 0] "x")]).map Prod.snd = some [true, true, true, false, true, true, false, false] := by
  decide +kernel

/-- A program that is called as a generated source, but not in the one way, is accepted, but is neither fed nor dropped. -/
theorem C76_source_name_defect : (runAll exWorld [.install "iota:02" (exSum [.input 0] "x"), .feed "iota:02" 0 7 none 1, .drop "iota:02", .feed "iota:2" 0 7 none 1, .drop "iota:2"]).map Prod.snd = some [true, false, false, false, false] := by
  decide +kernel

example : shard [10, 11, 12, 13, 14] 2 1 = [11, 13] := by decide

end DD
