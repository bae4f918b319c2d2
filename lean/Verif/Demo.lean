import Verif.World
import Verif.Float64

/-!
# A small world used in the concrete cases beside the theorems
-/

set_option autoImplicit false

namespace Estrade.Demo

/-- Monday 6 January 2020, 00:00 UTC. -/
def monday : ℤ := midnight 2020 1 6

/-- A tick of that Monday, `m` minutes after midnight UTC. -/
def tk (m : ℤ) (bid ask : ℚ) : Tick := ⟨⟨monday + m * minUs, monday + m * minUs, 0⟩, bid, ask⟩

/-- Two epics (08:00-16:00 and 00:00-23:00, UTC) on one backtests provider, two strategies. -/
def world : World :=
  ⟨[Epic.new "E0" Zone.utc (8 * hourUs) (16 * hourUs) [] [] 0, Epic.new "E1" Zone.utc 0 (23 * hourUs) [] [] 0],
   [Strategy.new "S0", Strategy.new "S1"], [Provider.new .backtests], [], []⟩

theorem world_init : world.Init := by
  refine ⟨?_, ?_, ?_, rfl, rfl⟩
  · intro e he
    simp only [world, List.mem_cons, List.not_mem_nil, or_false] at he
    rcases he with rfl | rfl
    · exact ⟨_, _, _, _, _, _, 0, by decide, rfl⟩
    · exact ⟨_, _, _, _, _, _, 0, by decide, rfl⟩
  · intro s hs
    simp only [world, List.mem_cons, List.not_mem_nil, or_false] at hs
    rcases hs with rfl | rfl
    · exact ⟨_, rfl⟩
    · exact ⟨_, rfl⟩
  · intro p hp
    simp only [world, List.mem_cons, List.not_mem_nil, or_false] at hp
    subst hp
    exact ⟨_, rfl⟩

/-- Strategies that do nothing. -/
def quiet : Env := fun _ _ _ _ => .done

/-- A frame set of 1-minute frames, ten in memory. -/
def minutes : FrameSet := ⟨.minute, 1, 10, [], [], []⟩

/-- Registrations, then ticks at 07:59, 08:00, 08:00, 08:02, 16:01 (market closed, open, open, open, closed). -/
def script : List Cmd :=
  [.addFrameSet 0 "UT1" minutes, .addStrategy 0 0, .addStrategy 0 1,
   .tick 0 (tk 479 10 12), .tick 0 (tk 480 11 13), .tick 0 (tk 480 12 14), .tick 0 (tk 482 9 11),
   .tick 0 (tk 961 10 12)]

theorem reachable [Arith] (env : Env) (l : List Cmd) : Reachable env (world.runCmds env l) :=
  ⟨world, world_init, l, rfl⟩

end Estrade.Demo
