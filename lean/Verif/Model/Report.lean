import Verif.Model.Simulator

/-
Model of the list of unprocessed blocks printed by debug builds: src/solver/simulator.cpp:89-118.
-/

namespace Pooya

variable {K : Type}

/-- `find_unprocessed_cb` and the call of `visit` (src/solver/simulator.cpp:90-101): all blocks with `!c.processed()`, in the order in which
`visit` comes to them; `max_level` is the largest `uint32_t` (src/block/block.hpp:101). -/
def unprocessed (b : Block K) (w : World K) : List (Block K) :=
  (b.visit (fun c _ (us : List (Block K)) => (true, if !w.done c.id then us ++ [c] else us)) 0 4294967295 []).2

/-- The inner loop (src/solver/simulator.cpp:108-115): the linked signals of a block except those that are not `Required` or that are assigned. -/
def missing (c : Block K) (w : World K) : List SigId :=
  (c.links.filter (fun p => !(!p.2.isRequired || (w.sig p.1).assigned))).map Prod.fst

/-- The blocks of the list with the signals listed below each of them. -/
def entries (b : Block K) (w : World K) : List (BlkId × List SigId) :=
  (unprocessed b w).map (fun c => (c.id, missing c w))

/-- "\n-- unprocessed blocks detected:\n" (src/solver/simulator.cpp:104). -/
def heading : Str := [10] ++ "-- unprocessed blocks detected:".toUTF8.toList ++ [10]

/-- The lines for one block (src/solver/simulator.cpp:107-114): "- " and its name, then "  - " and the name of a signal. -/
def entryText (e : Str × List Str) : Str :=
  [45, 32] ++ e.1 ++ [10] ++ e.2.flatMap (fun s => [32, 32, 45, 32] ++ s ++ [10])

/-- What is written to `std::cout` for the given entries (src/solver/simulator.cpp:102-117). -/
def reportText (es : List (Str × List Str)) : Str :=
  if es.isEmpty then [] else heading ++ es.flatMap entryText

/-- The text printed for a state of the diagram.  `blk` is `full_name().str()` of blocks and `sig` is `name().str()` of signals
(`Topology.lean` and `Name.lean` model how names come about). -/
def report (blk : BlkId → Str) (sig : SigId → Str) (b : Block K) (w : World K) : Str :=
  reportText ((entries b w).map (fun e => (blk e.1, e.2.map sig)))

/-- `process_model` up to the call of `post_step`, with the text it prints: `Simulator` (src/solver/simulator.cpp:31-118), where the list is printed
`#if defined(POOYA_DEBUG)`, and `FastSimulator` (src/solver/fast_simulator.cpp:25-38), which prints nothing. -/
def processPrint [Arith K] (cfg : Config K) (blk : BlkId → Str) (sig : SigId → Str) (t : K) (pre : Bool) : MM K Str := do
  inW (callInputs cfg t)
  if pre then inW (cfg.model.preStep cfg.dbg t) else pure ()
  evalModel cfg t
  let m ← get
  match cfg.strategy with
  | .fast => pure []
  | _ => pure (if cfg.dbg then report blk sig cfg.model m.w else [])

end Pooya
