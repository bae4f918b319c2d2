# Formal model of cimourdain/estrade in Lean 4: design

Contents: 1 shape of the model, 2 trusted base, 3 what is modelled and what is not, 4 how statements are kept honest,
5 plan per property, 6 findings about the code, 7 axioms per theorem, 8 building and checking.

## 1. Shape of the model

All modules live in `lean/Verif/`. Model modules contain definitions only; each definition cites the file and lines of
/repo/estrade it models. Property theorems live in `lean/Verif/Props/*.lean`, helper lemmas in `lean/Verif/Lemmas/*.lean`.

| module | models |
|---|---|
| `Num` | Python float arithmetic: class `Arith` (a rounding function `fl : ℚ → ℚ` applied after every operation, with the laws of IEEE rounding), `round(x, 2)` = `fl` of the half-even cent rounding, `sum`, division raising `ZeroDivisionError` |
| `Float64` | construction of the binary64 instance of `Arith` (53 bits, subnormals, no overflow) |
| `Py` | exceptions as values, list indexing/slicing with negative indices, dicts as association lists |
| `Time` | datetimes (UTC instant, wall clock, zone), CPython's proleptic Gregorian calendar (`_ord2ymd`, `_ymd2ord`), timezones |
| `Tick` | `tick.py`, `mixins/timed.py` |
| `Timeframe` | `mixins/timeframe.py` |
| `Frame` | `graph/frame_set.py`, `graph/base_indicator.py`, construction/update part of `rsi.py`, `simple_moving_average.py`; frames are heap objects with ids so that previous/next pointers, eviction and aliasing are explicit |
| `Indicators` | read-only part of `candle_set.py`, `pivot.py`, `rsi.py`, `simple_moving_average.py` |
| `Trade` | `trade.py` |
| `World` | `epic.py`, `strategy.py`, `trade_provider.py`: a world of epics, strategies, providers, a trade heap, request threads, and user callbacks as arbitrary programs over the API |
| `Special` | `tick.py`, `trade.py` and the price tracking of `Frame` again, with NaN, infinities and overflow (C75) |
| `Kwargs` | the `**kwargs` of `open_trade`, `close_trade` and `close_opened_trades` down to `Trade` and `TradeClose` (C112) |
| `Meta` | the `meta` dictionaries of ticks, trades and closes (C115) |
| `Lots` | trades and netting with quantities that are floats (C116, C117) |
| `Sum312` | the compensated `sum` of Python 3.12 and later (C118) |
| `Shared` | tick objects with identity, shared between epics (C74) |
| `Reentrant` | callbacks that feed ticks and register objects: nested `on_new_tick`, RuntimeError of a growing dict (C77) |
| `SharedInd` | indicator objects with identity, shared between frame sets (C79) |
| `SharedSet` | frame set objects with identity, shared between epics of one timezone (C86) |
| `Settings` | attributes of epics assigned while they run (C88) |
| `Rezone` | `epic.timezone` assigned while the epic runs; bounds of frames as instants with their zone (C89) |
| `Lazy` | `get_trades` as a generator advanced by user code, loops over it (C96) |
| `Free` | callbacks that do all the main program may do: trade, feed ticks, register objects, assign settings of epics (C97) |
| `Tickets` | user code that also builds `Trade` objects and calls `open_trade`/`close_trade` of any provider (C98) |
| `Objects` | tick objects with identity: `tick.bid`/`tick.ask` assigned before and after the tick is fed to a frame set without indicators (C99) |
| `Retune` | a frame set whose `unit`, `unit_quantity` and `max_frames_in_memory` are assigned while it runs: the length of a period comes from the constructor, its start from the attribute (C101) |
| `Markets` | epics with timezones of their own, assignable, that share frame set objects (C103); generalises `SharedSet` and `Rezone` |
| `Bounded` | frame sets, epics and worlds with datetimes of the years 1 to 9999 and their exceptions (C104) |
| `TickText` | `Tick.asdict`, `Tick.__str__`, `datetime_utc`, `Epic.__str__` (C105) |
| `Requote` | `Trade.update_from_epic` called by programs (C106) |
| `Refused` | `reporting/csv.py` when the operating system refuses files (C108) |
| `Custom` | frame sets again, with indicators and value classes written by users: arbitrary constructors, `on_new_tick`, truth values (C93) |
| `CsvText` | text of the CSV files: quoting, numbers, dates (C82) |
| `Report` | `reporting/csv.py`, `tick_provider.py`, `mixins/ref.py` |
| `History`, `Demo`, `Lemmas/Samples` | vocabulary for histories of one frame set; concrete worlds for the examples beside the theorems |

How the main proofs go:

* **Frame sets.** `Feeds u q m fs h` is "the frame set is in state `fs` after the deliveries `h`, indicators registered at
  any moments". A refinement `Feeds → Built → Rep` (Lemmas/FrameRep) maps the heap with its pointers to an abstract list of
  groups of deliveries; Lemmas/Timed and TickSet show that the groups are the calendar periods (or blocks of ticks);
  Lemmas/IndRep, Grouping, Windows, ValInv do the same for indicator values, SMA and RSI windows. Everything is by
  induction over `Feeds`; no bound on histories.
* **World.** `Reachable env w` is "some run from freshly constructed objects, any commands, any callbacks, any thread
  schedule, reaches `w`". Invariants (Lemmas/WorldSteps, Registry, Threads, Covered, ...) are proved for one operation,
  lifted through `Prog.run` (user code) and through ticks.
* **Numbers.** Three levels, visible in each statement: any float format satisfying the laws of `Arith`; `Exact` (`fl = id`);
  `Accurate` (relative error 2^-53 plus an absolute 2^-200) within an explicit range of prices and quantities, which
  binary64 satisfies (`accurate_binary64`). Statements about binary64 itself mention `Arith.binary64`.

## 2. Trusted base

* Lean 4.33.0's kernel and the Mathlib definitions used (ℚ, ℤ, lists, floor). Axioms: at most `propext`,
  `Classical.choice`, `Quot.sound` (section 7). No own axioms, no `sorry`, no `native_decide`/`bv_decide`; concrete cases use
  `decide +kernel`, i.e. evaluation by the kernel.
* The transcription of Python into the definitions of the model modules: reviewed by hand against /repo/estrade, file and
  lines on each definition. The Python code is not executed and no tool extracts the model from it.
* Semantics assumed of Python 3.6-3.11 and libraries: `round(x, 2)` is half-even on the exact value of the float and
  then converts to the nearest float; `sum` adds left to right from 0; comparisons of aware datetimes with the same tzinfo
  compare wall clocks, others compare instants; dicts keep insertion order; `datetime` calendar algorithms of
  CPython; `arrow.shift` is `relativedelta` followed by dateutil's `resolve_imaginary`; dateutil caches zone objects.
* `Arith` is a class of assumptions, not an axiom: `Arith.exact` and `Arith.binary64` are proved instances.

## 3. What is modelled, what is not

Modelled: every function of tick.py, trade.py, epic.py, strategy.py, trade_provider.py, tick_provider.py, reporting/csv.py,
graph/*.py, graph/indicators/*.py and mixins/{timed,timeframe,ref,meta}.py, exceptions as values, except what follows.
`event_manager.py` is commented out in the repository (dead code); mixins/transaction.py holds a plain attribute.

Not modelled, or simplified (also said at the definitions):

* Numbers: NaN, infinities, overflow and `float(int)` raising OverflowError appear only in `Special.lean` (ticks, trades, frame
  extremes; C75), everywhere else floats are finite and `C75_finite_constructor`, `C75_finite_value`, `C75_finite_trade` say in
  which range that loses nothing. Int quantities enter products and quotients exactly; Python first converts them to float,
  which differs above 2^53. Negative zero; The compensated `sum` of Python >= 3.12 is modelled apart from the rest (`Sum312`, C118).
* Datetimes: the ends of the calendar (years 1 and 9999) are modelled in `Bounded` only (C104), elsewhere wall clocks are
  integers without end; for programs whose ticks are of the years 2 to 9997 that loses nothing (`C104_world`); `fold` is not represented (ambiguous wall clocks convert through the
  UTC instant, which is what the code does). A zone is an arbitrary offset function of the instant and an arbitrary
  `resolve` function; theorems that need it assume that `resolve` never moves a wall clock backwards, that
  it keeps the aligned instants of a history (`Spec.NoneSkipped`), or that the wall clock never goes back (C16). Lookup of zone names (`pytz.all_timezones`) is not modelled (a name is a known zone or an unknown one); `epic.timezone` assigned while the epic runs is modelled for zones of constant offset (`Rezone`, C89; `Markets`, C103).
* Ticks are values in `World`. The code converts `tick.datetime` in place (epic.py:244), so one Tick object fed to two
  epics with different zones changes under the first one; `Shared.lean` models the objects (C74), except the
  datetime shown by ticks stored in frames, which no code reads. `tick.bid` and `tick.ask` assigned before the tick is fed are covered everywhere
  (`Tick` does not ask for bid <= ask); assigned afterwards they are modelled for one frame set without indicators (`Objects`, C99): in `World`
  such an assignment would also change `epic.last_tick` and the values of indicators.
* `World` gives each frame set its own copy of an indicator; `SharedInd` models the objects (C79). It gives
  each epic its own copy of a frame set; `SharedSet` models the objects (C86), of epics with one timezone, and `Markets` with timezones of constant offset of their own (C103), without trades
  and strategies (which do not influence frames, C57).
* Indicators written by users are modelled for one frame set (`Custom`, C93): their code changes nothing but its own value object,
  does not read the epic, and `set_frame_set` is that of `BaseIndicator`. Elsewhere indicators are those of the library.
* Attributes of a frame set assigned while it runs are modelled for one frame set (`Retune`, C101), the theorems are about sets without indicators;
  in `World` the attributes stay what the constructor made them.
* A frame set that raises during a tick is left in the state of `FrameSet.feed` (Frame.lean), which follows each exception to the point where
  Python stops; `feed_eq` proves that it agrees with `FrameSet.onNewTick`, which describes the calls that return.
* In `World`, callbacks may call the whole trading API, set `paused_until`/`stopped`, let threads run and raise. In
  `Reentrant` they may also feed ticks and register objects (C77; `C77_conservative` says that the first model is a special
  case), in `Free` moreover assign the settings of epics (C97), in `Tickets` moreover build trades and hand them to any provider (C98). Python's recursion limit is there a limit on nested `on_new_tick`
  calls. Callbacks do not assign other attributes (`strategy.ref`, `epic.last_tick`, ...).
* In `World` the keyword arguments of openings and closes are suitable; `Kwargs` (C112) lets the caller leave some out, invent names and give
  quantities that are no numbers. Quantities that are floats are modelled in `Lots` only (C116, C117), for single trades and the netting loop; other numbers (`Decimal`, `Fraction`, `bool`), strategies that are no strategies and statuses that are no members of the enum are not modelled.
* Threads: a request thread executes its method atomically at some point between two operations (also inside
  callbacks). Custom request methods may only set a status (or nothing, or raise).
* Reports: a folder maps file names to header and rows, `CsvText` gives their characters (the text of a float is a parameter);
  `Refused` adds files that cannot be opened, in particular because of a "/" in a reference (C108); encodings, different spellings of one path and
  writes that fail in the middle of a file are not modelled.
* `meta` dictionaries are not part of `World`; `Meta` models them alone (C115), with texts as keys and values and without assignments to `obj.meta`.
* Logging, `gc.collect`.

## 4. How statements are kept honest

* Each property has a small specification (`namespace Spec` or plain calendar/list language) that does not use the model's
  helper functions; definitions occur in theorems only as the thing observed.
* Beside each theorem stands a concrete non-trivial case that meets its hypotheses (`example`, evaluated by the kernel).
* A property that is false of the code has a theorem `Cxx_false` (or `Cxx_not_in_binary64`, ...) with a concrete witness,
  and a theorem `Cxx_..._partial` for the largest part found true; the full statement stays in properties.jsonl.
* Model mutations: realistic wrong programs are made by editing the model in a scratch copy; `seeded/LOG.jsonl` lists
  each edit, the claim it breaks and the theorems that stop compiling, and the statements tightened as a result.

## 5. Plan per property

C01 model `Tick.new` on raw Python values; case analysis. C02 rational arithmetic on half-even rounding; `Exact`, then binary64.
C03-C05 model each `_get_timeframe_start_*` from calendar fields; independent spec `Aligned` on fields; prove greatest/least; partition follows.
C06 decision table for all integers: the code accepts negative quantities (and zero years/ticks) -> negation + `_partial`.
C07-C09 heap model refines an abstract grouping, which equals a declarative filter specification; induction over the history.
C10 same for TICK; day-split is dead code behind `Epic.on_new_tick` (last_tick is updated first) -> chunk theorem plus negation of the day split.
C11, C12 invariant on heap/window; "once closed stays closed" is false for evicted frames -> negation + partial.
C13 fuel-free termination for positive quantities, divergence for negative ones (in a calendar without end; C104 for the real one).
C14 index arithmetic. C15 case analysis + invariant. C16 true for zones whose wall clock never goes back, false across a DST fall-back -> negation + partial.
C17 decision logic. C18-C20 callbacks as arbitrary programs, history variable for notifications. C21 induction over additions.
C22-C28 trade model; C25 false in binary64, C26 false for a zero closing quote -> negations + partial.
C29 false for providers shared by epics -> negation + partial. C30 false (quantity 0 closes everything) -> negation + partial. C31, C32 induction over the netting loop.
C33-C35 invariants over world histories; threads as explicit scheduler steps.
C36 false for unsorted trades -> partial. C37 false for `[]`. C38 arithmetic. C39 fold over trades.
C40, C41 on the grouping; C42-C44 candle arithmetic (zero price and eviction findings). C45-C49 SMA/RSI windows (max_periods = 1, N = 1 and non-atomic registration findings). C50, C51 pivots.
C52 file system as a map. C53, C54 lists, pigeonhole. C55 rational arithmetic. C56, C57 world invariants.
C63, C64 invariants `LInv`, `TInv` of lives of frame sets that go on after exceptions (`Lived`).
C65 the two sets refine the same history (`Spec.PeriodFrame` of each frame); the ticks of a coarse period are cut at the starts of the fine frames.
C66 `Spec.PeriodFrame` determines the frame (`Spec.PeriodFrame.unique`); both sets refine their histories; units compared through their grids.
C67 fold over the operations: banked plus pending result within quantity times the extreme moves (`Between`); floats by `WithinRange`.
C68 invariant `Settled` over all steps of the world; the flat strategy folds it over its trades.
C69 two adjacent ticks of different epics commute up to the log (`ticks_commute`); interleavings differ by such swaps.
C70 simulation `Sim s`: two worlds whose epics, provider classes and trades of strategy `s` agree (ids of trades may differ, statuses
erased).  Own operations preserve it with equal exceptions, operations of others keep one side (`KeepsOwn`); the netting loop restricted to
own trades is the loop over the strategy's own list (`netLoop_own`).
C71 error of a float sum of n terms (`RelErr`, Lemmas/RsiError.lean) is under half a cent for n and closes at most 2^20, and cents are 0.01 apart;
C45 and C48 in floats use the same bounds.
C72 relation `Worse` between two trades going through the same calls, kept by every call because rounding is monotone.
C73 the map `Spec.scaleWorld k` commutes with every function of the model (`scale_*`), exact arithmetic.
C74 heap of tick objects over `World`; invariants `PoolInv` (retagging is the identity) and `HoldInv` (simulation of the market side up to the zone of the last tick).
C75 separate model over all floats; case analysis on NaN, simulation (`Tame`) of the finite model inside it.
C76 invariant `ReqInv` over primitive steps (requests valid, ordered, of listed trades); exact lists per operation by induction on the loops.
C77 projection `World.core` (everything but pauses and notifications) commutes with every operation; nested runs are flattened by induction on the nesting (`FlatTo`), so invariants of flat runs carry over.
C78 from the registration invariant `RegInv`: both books are duplicate-free with the same members.
C79 simulation `SetInv` between the bench and each frame set with its own copies.
C80 a map of worlds (prices + c) that commutes with every function, as for C73; `SetupInv` for the placeholder ticks of the start.
C81 a map of frame sets (forget the indicators outside a set) that commutes with every call that raises nothing.
C82 the writer is the `excel` dialect of Python's `csv`; the reader is a separate state machine (RFC 4180); induction over fields and rows, then decoding of decimal numbers and dates.
C83 `Lemmas/Mapping`: a map of worlds described on single objects (ticks, epics, trades, frame sets; `Lawful`) commutes with every command and every callback; instance: dates moved by whole weeks.
C84 second instance of `Lemmas/Mapping`: prices mirrored at a level and directions exchanged; the invariant behind it is that lows are at most highs in every frame and every value.
C85 third instance of `Lemmas/Mapping`: other references, from any world, without restrictions (`anything`).
C86 frame sets as objects: simulation by the copying model while no object is added to two epics (`Owned`), and a `Feeds` history of the merged ticks when it is.
C87 simulation of a run with backtest providers by the run with brokers, while netting has nothing to do (`netLoop_idle`); for strategies of one direction this is an invariant of the trades (`Labelled`).
C88 the schedule is a fold over the assignments; frames without restricted indicators do not read the market flag (`feed_freed`); assignments other than of providers are steps of `WPrim`, so its invariants go through.
C89 bounds are grid points of the clock of the zone of their frame; datetimes of zones of constant offset compare as instants; changing datetimes commutes with everything in a frame set but the choice of boundaries (`Lemmas/Redate`), which agree when offsets differ by whole periods.
C90 updating a frame with a tick it already ends with is a fixed point of every indicator (`Lemmas/Repeat`), frame sets of time units never read counts of ticks (`Lemmas/Recount`); induction over the program on the front states of epics.
C91 a frame and each of its indicator values are a function of the first, highest, lowest and last tick they were given (`Fed`, `Lemmas/Bars`); a run of ticks of one minute starts at most one frame, at its first tick (`Lemmas/Minutes`); induction over the two programs on the front states of epics. Limits: `C91_seconds`, `C91_market_change`, `C91_trades`.
C92 a program whose trades all come from marked openings (`GrowsBy`, `Lemmas/Births`: what a callback may add to the registry), an invariant on the hours of openings, and an induction over the strategies of an epic in which the market has just closed; callbacks reserved to open markets are replaced by ones defined there only (`gate`).
C93 erasing the values (`bones`, `Lemmas/Custom`) commutes with every step unless a constructor raises; the library's frame sets are an instance (`Lemmas/CustomLift`); values by induction over `UFeeds` against the groupings of `Timed` and `TickSet`, deliveries without the indicator being marked (`Lemmas/UserValues`).
C94 invariant `GuardedInv` on top of `MarkedInv` (open trades are valued at the last quote of their epic, so closing changes no result): each operation keeps it (`guarded_quoteInv`), a tick weakens the bound on open trades by the jump (`Limited.repriced`), and the turn of the strategy restores it (`stopLoop_guarded`), the other strategies before and after keep whichever holds (`exec_guarded`).
C95 a monotone measure of the open quantity, summed over the selection (`gross`): trades that are kept do not grow (`Kept.openedQty_le`), an operation makes at most one trade of at most the quantity asked for (`step_new`, netting included), and rules that look at the state are followed along the run (`Prog.Obeys`, `run_obeys`).
C60-C62 invariant `MarkedInv` of runs with one provider per epic, then the algebra of results. C58, C59 invariants of runs over quotes (`QuoteInv`): every fill cites a position in the list of accepted ticks of its epic.
C96 `Lazy`: the generator is a number of entries left and a pure function of the state (`Gen.next`); `calls_spec` by induction on the states in which it is asked, `forEach_left` on the entries left; user code with a generator (`GenProg`) is translated to `Prog`.
C97 every run is the flat run of its commands up to pauses and notifications (`LinedUp`, as for C77), so invariants of flat runs with assignments (C88, `runSets_inv`) carry over; `BookInv` is the part of the invariant of registration that does not mention the provider of the epic; the callbacks of one tick by induction over the strategies, the market state being constant (`StillIn`).
C98 properties kept by primitive steps, by changes of epics and by the new commands hold after every run (`Lasting`, `lasting_run`); the books of all programs by counting occurrences (`Tally`); the netting of an order reduces to the loop of C30 (`place_eq`, `providerOpen_backtests`).
C99 frames of object names; bisimulation with the run without assignments on the parts that do not depend on quotes; simulation by the frame sets of `Frame`; agreement on the objects fed; the extremes are false -> negation + partial.
C100 induction over the entries of the generator with the effect of the rest of the loop as invariant; invariants of runs at every point of a tick (`WSteps`); the rule is a parameter. Necessity of the position: concrete run.
C101 simulation `Trails` between a frame set and one that forgets nothing; `Youngest` turns a frame set without indicators into the list of frames ever made; induction over programs.
C102 simulation `Behind` (the frames of one set are some older ones followed by those of the other), then the window theorems C45, C48, C44 and C50 on both sides.
C103 the invariant of C89 per frame set object, kept by ticks in any order (a late tick changes no bounds); simulation by `SharedSet` for one zone, and by the desk in one zone where boundaries agree.
C104 the end of the current frame fits in the calendar and is on the grid, so the loop meets only bounds below that of the new frame, which is computed first; for negative quantities the loop goes down until the calendar ends; hang by induction on the number of iterations. For all zones: the shift of an inner wall clock ends a day or more from the last datetime, and zones move clocks by less than a day (`shiftUnit_inner`, `calEnd_inner`); the world by an invariant of its frame sets (`LateWorld`).
C105 fields are cut at characters that they do not contain; digits of equal length compare as numbers; dates compare by month number and day.
C106 invariant of single trades (`QuoteInv`): a new trade starts at a loss of its spread, so a smaller quantity can only raise its result; a revaluation puts the result between the extremes, a close at the current value keeps it. Revaluing twice is revaluing once.
C107 frames before the current one are kept but for their links (`C11_creations_append`), the previous value is the nearest one in memory (`C41_navigation`): later it is the same one filtered by memory (`previous_later`).
C108 the loop writes a prefix of the list of files (`Spec.Written`, induction on the strategies); the rest follows from that description.
C109 the requests about listed trades are a permutation of the openings and closes of those trades (C76, C78); the money of one trade is an identity. In floats (`StatementRange`) the account is kept at prices rounded to cents, and the result is the float of it.
C110 the values of every trade are its open value or sides of accepted ticks of epics with the same provider (`Priced`, induction over commands, using the registration invariant at each tick).
C111 `links` (epic.strategies and strategy.epics) is changed by no operation and no tick (`exec_links`); the dictionaries are then folds over the registrations of the program (`Linked`, `run_linked`).
C112 `Kwargs` models the calls with arbitrary keyword arguments; each call is nothing or one operation of `World` (`C112_step`), and by induction on callbacks every program of such calls has the effect of a program of `World` (`C112_program`).
C113 `Company` relates two worlds that look the same to one strategy each, whose trades are matched by position in its list; it is kept by own acts on both sides (`company_act`), by acts of others on either side (`company_foreign`), and by ticks (double induction over the two dictionaries of strategies, `company_execAll`); runs are zipped along the steps that concern the strategy.
C114 uses the same relation, which speaks of a set of epics: those outside it have other providers and do not call the strategy (`Beside`); a tick of such an epic only executes acts of other strategies and revalues trades that are not matched (`stranger_tick`).
C115 heap of dictionaries (`Meta`), whose entries are matched with holders, by which the specification names dictionaries; the rest is about the history of puts.
C116 the closed quantity is a whole number of units and never more than the opened one, so every sum and difference is exact (`Lot.Units`); witnesses in binary64 by computation; for other floats the error of one close is bounded and does not depend on how many came before (`Lot.Sane`). C117 sums of cents against sums of products, close by close; in floats averages of cent prices are the floats of cents, and the rest is the error of one product per close and of the sums.
C118 the sum of the loop is that of earlier versions (`Apx`), and its compensation stays within a few units in the last place for each float (`NeuInv`).

The status of each and what is missing: `MANIFEST.json` (notes), generated by `tools/manifest.py` from `tools/claims.py`.

## 6. Findings about the code

Each with the theorem that proves it of the model.

* C02: for huge quotes the value is further than 0.0075 from the mid (`C02_not_in_binary64`); the value of quotes with more
  than two decimals may lie outside them (`C02_value_outside_quotes`).
* C03: a YEAR quantity larger than the year raises ValueError (`C03_frame_start_raises_iff`).
* C04, C09: a clock change that skips a frame boundary (midnight in São Paulo) shifts all later ends (`C04_false`, `C09_false`,
  `C09_skipped_instant` for any such instant);
  frames may then overlap (`C08_overlap_at_clock_change`).
* C06, C13: negative quantities and zero ticks/years are accepted (`C06_false`, `C06_zero_year_accepted`); the gap filling
  loop then never ends in a calendar without end (`C13_false`, `C13_negative_quantity_diverges`). With the real calendar it ends
  with OverflowError or ValueError at year 1 in zones of constant offset (`C104_negative`), and hangs at a clock change (`C104_false`).
* C10: the day split of TICK frames never happens under an epic because the epic replaces its last tick first
  (`C10_day_split_false`); without an epic each tick makes a frame (`C10_detached_one_frame_per_tick`).
* C12: a frame dropped from memory becomes "not closed" again (`C12_stays_closed_false`), and with it its candle's close is lost
  (`C43_close_false`); Heikin-Ashi opens change when an older frame is dropped (`C43_heikin_open_false`).
* C14: negative offsets count from the oldest frame (`C14_negative_offset`).
* C16: chronological ticks are refused when clocks go back (`C16_false`).
* C19, C57: an exception in one strategy or frame set suppresses the notifications/updates of the later ones for that tick
  (`C19_false`, `C57_false`). What a strategy hears at a tick with exceptions is always a beginning of what is due (`C19_tick`).
* C20: a pause set on a strategy of two epics is cleared by the first epic that ticks after it (`C20_false`).
* C22, C24: a negative quantity given to `close` enlarges or reopens the position (`C22_negative_close_grows`,
  `C24_negative_close_reopens`).
* C25: min/max results miss the result after a close in binary64 (`C25_false`) and after a direct close (`C25_direct_close_not_counted`).
* C26: a closing quote of 0 is taken as missing (`C26_false`).
* C27, C56, C42: sums of rounded parts are not exact in binary64 (`C27_not_in_binary64`, `C56_not_in_binary64`, `C42_not_in_binary64`);
  they are within explicit ranges (`..._in_range...`).
* C29: ticks revalue all open trades of the provider, also those of other epics that share it (`C29_false`).
* C30: netting a trade that is already fully netted passes quantity 0, which means "all" (`C30_false`, `C30_exposure_iff`).
* C58: `Epic.open_trade` works before the first tick: the trade is filled at price 0 on 1900-01-01, the placeholder tick of the
  constructor (`C58_before_first_tick`).
* C60: open trades do not follow the quotes of their epic when another epic shares the provider (`C60_false`), when the exit side
  of the opening quote is 0 (`C60_false_zero_quote`: `current_close_value or open_value`), or when a frame set raises after
  `last_tick` was replaced (`C60_false_frame_error`).
* C63, C64: a tick whose indicators raise is recorded in the current frame but lost if it should start one
  (`C63_recorded_in_current`, `C63_lost_when_starting`); with `max_frames_in_memory` below 1 each new frame raises IndexError yet becomes current
  (`C64_raised_but_recorded`), and after a gap the tick is lost and the frames lag behind (`C64_gap_loses_tick`).
* C65: fine frames that fill a gap at the start of a coarse period repeat a tick of an earlier period, so their highs and lows can lie outside
  the coarse frame, and each counts one tick (`C65_false`).
* C68: a close with a negative quantity opens a closed trade again, and its result moves (`C68_negative_close`).
* C69: the order of ticks of different epics is visible in the notifications of a paused strategy (`C69_notifications_differ`), and in
  the trades if two epics share a provider (`C69_shared_provider`).
* C70: a strategy that lets an exception out keeps those registered after it from being called (`C70_raising`).
* C71: `get_value(0)` of a moving average raises ZeroDivisionError (`C71_zero_periods`).
* C72: an exit quote of 0 on the opening tick is taken as missing (`current_close_value or open_value`), so a wider spread can then show a better result (`C72_false`).
* C73: the profit factor depends on the size of positions as long as the losses are below 1, because the divisor is then 1 (`C73_false`).
* C74: an epic whose last Tick object is fed to an epic of another zone answers `is_market_open()` with the other zone's clock (`C74_false`); after clocks go back, sharing even decides whether the next tick is accepted (`C74_clock_change`).
* C75: `Tick` accepts NaN on either side (`C75_nan_accepted`, `C75_false`). A frame that starts with it keeps NaN as high and low for good (`C75_frame_nan_first`); a trade opened while the exit quote is NaN never has a best or worst result again (`C75_nan_extremes_stick`); one opened at NaN has the result NaN for good (`C75_nan_open`). Finite quotes -2^1023 / 2^1023 have the value infinity.
* C76: `epic.close_trade(trade)` does not check that the trade is of that epic; the request then goes to a provider that never opened the trade (`C76_wrong_broker`).
* C77: a tick fed from inside a callback is handled completely before the other strategies hear of the outer tick; they may get `on_market_close` without `on_market_open` and hear of the last tick twice (`C77_callbacks_false`). Adding a strategy to an epic from its own callbacks makes the tick raise RuntimeError (`C77_growing_dict`).
* C79: `RSI.set_frame_set` stores `rsi_periods` in the indicator object, so adding one RSI object to a second frame set changes the values of the first one (`C79_false`), also when `add_indicator` raises.
* C86: a frame set added to two epics accepts ticks out of order (`C86_false`), asks the epic it was added to last whether the market is open (`C86_market`), and applies the day rule of tick frames, dead code otherwise (C10), with the date of that epic (`C86_day_split`).
* C87: backtests net a trade against the open trades of other direction of its strategy before it reaches a provider; the classes for brokers do not (`C87_false`), and send quantities that are not positive (`C87_zero_false`).
* C88: replacing `epic.trade_provider` leaves open trades behind: they are not revalued any more (`C88_false`). An empty `trade_days` means Monday to Friday in the constructor, no trading at all when assigned (`C88_empty_days`).
* C89: where `epic.timezone` is changed frames overlap: a daily frame of Monday in UTC is followed by one from 02:00 UTC on Monday to 02:00 UTC on Tuesday (`C89_false`).
* C84: rounding to even cents is symmetric only around even cents (`C84_false`); the value of a tick is computed from the bid and the rounded spread (`C84_spread_false`); an exit quote 0 counts as missing (`C84_zero_false`); the RSI of a flat window is 100, not 50 (`C84_flat_false`).
* C83: frames of months and years depend on the calendar (`C83_false`, `C83_years_false`); trade days make whole weeks necessary (`C83_days_false`). A new epic shows a tick of 1900, which is not moved, so first ticks come after 1900 in both runs.
* C82: `open_date` is printed without offset, so the two passes of a repeated hour look the same in a report (`C82_instant_false`). A strategy without trades gets a file with an empty header line.
* C81: an indicator that raises while a frame is built (RSI of 0 periods) keeps the frame from being made, so the other indicators have no value either (`C81_false`).
* C80: `Tick.value` rounds half cents to even, so raising all quotes by 0.01 can turn two equal values into different ones (`C80_false`); an exit quote of 0 counts as missing in `Trade.__init__` (`C80_zero_false`).
* C36: `only_after` stops at the first earlier trade (`C36_false`). C37: `result([])` is the result of all trades (`C37_false`).
* C42, C50: prices and pivots equal to 0 are taken as missing (`C42_false`, `C50_false`).
* C45: market_open_only averages mix closes of frames outside the market (`C45_false`) and depend on the memory limit
  (`C45_market_open_only_memory`). C46: max_periods = 1 keeps all closes (`C46_false`).
* C47, C48: RSI with N = 1 keeps all changes (`C47_false`, `C48_false`); RSI(0) is accepted and raises at the first tick
  (`C47_zero_periods_raises`). C49: a refused RSI stays registered (`C49_false`, `C49_stays_registered`).
* C52: a report in the same second, or two strategies with one reference, loses lines (`C52_false_same_second`, `C52_false_same_ref`).
* C54: automatic references collide (`C54_false`).
* Frames made for periods without ticks count one tick and use the market state of the tick that ends the gap (part of C09, C40).
* C93: `if current_indicator_value:` (frame_set.py:97) asks the value object for its truth value, so a user's value class with `__len__` or `__bool__` that is falsy when new is built again at every tick and never updated (`C93_values_false`). A constructor that raises keeps the frame set empty for ever, and the exception comes back at every tick (`C93_no_frames`).
* C94: a stop loss in `on_every_tick` is defeated by a tick of another epic on the same provider, which values the trade at a foreign price (`C94_shared_false`), and by an exception of a strategy registered earlier (`C94_raising_false`).
* C96: a loop over `get_trades(open_only=True)` skips trades closed (netted) by its own body before their turn, a loop over `list(...)` does not; a generator used for `result` is empty for `profit_factor`, which is then 0; an empty generator gives 0 where an empty list gives the result of all trades.
* C97: an assignment inside a callback shows at the next tick only; once `trade_provider` is replaced, open trades stay with the old provider, which the ticks of the epic no longer revalue and whose netting no longer sees them (`C97_provider_false`, `C88_false`).
* C98: `provider.open_trade(trade)` does not look whether the trade is listed already: handed over twice, it is listed twice and its result counts twice in `strategy.result` (`C98_twice_false`); netting then reduces `open_quantity` below what is already closed (`C98_resubmit_false`). A trade handed to a provider other than its epic's keeps its old value (`C98_elsewhere_false`), although its closes are sent to the epic's provider.
* C99: the setters of `Tick` do not check ask >= bid as the constructor does: the spread can become negative (`C99_order_false`). A frame keeps the tick objects: an assignment changes the open and close of closed frames (`C99_closed_false`), while `high_tick` and `low_tick` stay those chosen when the ticks came (`C99_extremes_false`).
* C100: strategies act in the order of registration, and a later one can change the trades of an earlier one after its callback, so an exit rule need not hold at the end of a tick (`C100_last_false`).
* C101: `_timedelta` is computed once in the constructor while the start of a frame uses `unit_quantity` as it is now. After `unit_quantity = 5` on
  a one-minute set, the tick of 10:04 gets a second frame 10:00-10:01 that does not contain it (`C101_inside_false`); after `unit_quantity = 1` on a
  five-minute set, frames overlap (`C101_overlap_false`).
* C102: a Heikin-Ashi open depends on all candles in memory, so its warm-up is `max_frames_in_memory` frames; no fixed number of frames
  is enough for all limits (`C102_heikin_endless`).
* C103: a frame set shared by epics of different timezones has overlapping frames even if ticks come in order (`C103_false`); a tick that comes late to another epic becomes the last tick of a frame that begins after it (`C103_any_order_false`).
* C104: hour frames of quantity -1, which the constructor accepts, hang on the second tick of a day with a clock change (`C104_false`, `C104_hang`): the loop goes back to 03:00, one hour before is 02:00, which does not exist and is moved to 03:00 again.
* C105: `strftime` does not pad years, so that texts of years before 1000 do not sort as time does, unlike those of reports (`format("YYYY...")`), and in a timezone texts do not sort as instants when clocks go back (`C105_sorted_false`, `C105_zone_sorted_false`).
* C106: `TradeProviderBacktests.open_trade` reduces `open_quantity` of a trade that closes others of the opposite direction, but its `min_result` and `max_result` were recorded for the full quantity. Right after opening, `result > max_result`; the next revaluation repairs the maximum, never the minimum, a loss that the trade did not have (`C106_false` and the example after it).
* C107: pivots are read through `previous`, so the pivot, supports and resistances of the oldest frame in memory, shown as long as the frame before it was there, become `None` when that one is dropped (`C107_pivot_false`).
* C108: a strategy whose reference contains "/" makes `report` raise FileNotFoundError; the strategies after it in the list and the summary are not written (`C108_false`). Repeating the report within the same second after the cause is removed completes it (`C108_retry`).
* C109: `trade.close` called directly changes the result but no provider is told (`C109_direct_false`).
* C110: a trade of one epic is valued by ticks of any epic of the same provider, so two epics with different price levels on one provider show profits that no quote of the epic allows (`C110_epic_false`); so do trades opened before the first tick, at the placeholder price 0 (`C110_placeholder_false`).
* C111: two epics of one reference: `strategy.epics` lists only the last registered, the other one still calls the strategy
  (`C111_twins`).
* C112: `close_trade` with an unknown keyword or with a quantity that is no number raises TypeError after it has revalued the trade
  (`C112_atomic_false`); `close_opened_trades` with an unknown keyword is silent without open trades; prices passed to `open_trade` are ignored.
* C113: a strategy registered after another one of the same reference is refused by `add_strategy`, so it does depend on others of its name
  (`C113_name_false`).
* C114: with one provider for two epics a tick of either epic revalues the trades of both, so foreign markets do matter (`C114_shared_false`).
* C115: `meta or {}` keeps the given dictionary unless it is empty: the closes of `close_opened_trades(meta=...)` share one dictionary, and a provider
  that writes the details of a transaction there, as documented, overwrites those of the other ones (`C115_shared_false`, `C115_alias_false`).
* C116: nothing checks that quantities are ints. With floats, a trade of 0.8 closed by eight closes of 0.1 stays open (`C116_tenths_false`), `close()` may leave
  a rest above or below 0 (`C116_rest_false`), and netting 0.8 against eight trades of 0.1 opens a trade of 1.4e-16 (`C116_net_false`).
* C117: results of closes are rounded to cents, so that closes of 0.5 with a gain of one cent per unit gain nothing (`C117_adds_up_false`).
* C118: `sum` of floats is compensated since Python 3.12, which `^3.6` admits: simple moving averages can differ by a cent between versions
  (`C118_sma_false`), and a trade of a fractional quantity can be closed in one version and open in the other (`C118_tenths_false`).

## 7. Axioms per theorem

Output of `tools/axioms.py` (`#print axioms` for every theorem of MANIFEST.json):

* **Classical.choice, Quot.sound, propext** (630 theorems): `C01_tick_accepts_iff`, `C01_tick_rejects_iff`, `C01_tick_ordered`, `C02_value_cents`, `C02_value_ge`, `C02_value_between_partial`, `C02_value_near_mid_partial`, `C02_value_cent_quotes_partial`, `C02_not_in_binary64`, `C02_value_outside_quotes`, `C02_value_near_mid_in_range_partial`, `C02_value_cent_quotes_in_range_partial`, `C02_value_le_binary64`, `C02_value_between_binary64`, `C03_frame_brackets`, `C03_frame_start_raises_iff`, `C04_frame_start_greatest`, `C04_frame_end_least_partial`, `C04_frame_end_existing_partial`, `C05_start_idempotent`, `C05_start_mono`, `C05_end_is_start`, `C05_same_frame_iff`, `C06_validation_partial`, `C06_decision`, `C07_tick_in_current_frame`, `C08_frames_contiguous`, `C08_overlap_at_clock_change`, `C09_frames_are_periods_partial`, `C09_skipped_instant`, `C09_false`, `C10_tick_blocks_partial`, `C10_day_split_false`, `C10_detached_one_frame_per_tick`, `C11_memory_keeps_latest`, `C11_creations_append`, `C12_links_mirror_list`, `C12_evicted_unlinked`, `C12_stays_closed_false`, `C12_stays_closed_partial`, `C13_gap_filling_terminates_partial`, `C13_fuel_irrelevant`, `C13_negative_quantity_diverges`, `C13_false`, `C14_get_frame`, `C14_current`, `C14_unknown`, `C14_indicator_value`, `C14_negative_offset`, `C15_anterior_rejected`, `C15_accepted`, `C15_non_decreasing`, `C16_instant_preserved`, `C16_false`, `C16_chronological_accepted_partial`, `C17_market_open`, `C17_market_open_always`, `C17_default_days`, `C18_callbacks`, `C18_callbacks_static`, `C18_nothing_else`, `C19_tick`, `C19_heard_partial`, `C19_first_partial`, `C19_alternation_partial`, `C19_false`, `C20_stopped_never_called`, `C20_pause_partial`, `C20_single_epic`, `C20_false`, `C21_frame_set_refused`, `C21_frame_set_added`, `C21_strategy_added`, `C21_references_distinct`, `C22_closes_are_a_ledger`, `C22_quantities_add_up`, `C22_request_clamped`, `C22_omitted_closes_all`, `C22_negative_close_grows`, `C23_result_in_range`, `C23_result_binary64`, `C23_result_is_the_account`, `C23_result_in_floats`, `C23_result_avg`, `C23_closed_result_avg`, `C24_closed_trade_frozen`, `C24_negative_close_reopens`, `C25_extremes_partial`, `C25_between_partial`, `C25_updates_any_format`, `C25_false`, `C25_direct_close_not_counted`, `C26_open_side_partial`, `C26_invalid_direction`, `C26_valued_at_exit_quote`, `C26_closed_at_exit_quote`, `C26_round_trip`, `C26_round_trip_exact`, `C26_false`, `C27_split_close_in_range_partial`, `C27_split_close_partial`, `C27_not_in_binary64`, `C28_mirror`, `C29_before_callbacks`, `C29_provider_trades_repriced`, `C29_repriced_partial`, `C29_false`, `C30_netting`, `C30_exposure_change`, `C30_exposure_iff`, `C30_exposure_partial`, `C30_false`, `C31_others_untouched`, `C32_one_side`, `C33_opened_trades`, `C34_registered_once`, `C34_opening_order`, `C34_never_removed`, `C35_schedule_irrelevant`, `C35_confirmed`, `C35_closes_confirmed`, `C36_one_epic_partial`, `C36_general`, `C36_no_date`, `C36_filters_partial`, `C36_false`, `C37_result_in_range_partial`, `C37_order_in_range`, `C37_result_in_floats`, `C37_result_partial`, `C37_empty_list`, `C37_order_irrelevant`, `C37_false`, `C37_order_in_binary64`, `C38_profit_factor`, `C38_exact`, `C39_closes_everything`, `C39_none_open`, `C40_values`, `C40_timed_frames`, `C40_tick_frames`, `C41_navigation`, `C41_dropped_frames`, `C42_sum_in_range_partial`, `C42_order`, `C42_parts_partial`, `C42_geometry_partial`, `C42_false`, `C42_not_in_binary64`, `C43_values_partial`, `C43_heikin_partial`, `C43_close_false`, `C43_heikin_open_false`, `C44_order`, `C44_chain`, `C44_last`, `C44_last_exact`, `C44_last_binary64`, `C45_sma_partial`, `C45_sma_exact_partial`, `C45_memory_independent_partial`, `C45_false`, `C45_market_open_only_memory`, `C45_sma_in_floats_partial`, `C46_window_partial`, `C46_false`, `C47_range`, `C47_extremes_partial`, `C47_never_raises_tick`, `C47_never_raises_timed`, `C47_never_raises_tick_binary64`, `C47_never_raises_timed_binary64`, `C47_never_raises_tick_exact`, `C47_never_raises_timed_exact`, `C47_zero_periods_raises`, `C47_false`, `C48_present_partial`, `C48_value_partial`, `C48_false`, `C48_value_in_floats_partial`, `C48_value_in_binary64_partial`, `C49_check_partial`, `C49_stays_registered`, `C49_others_never_raise`, `C49_false`, `C50_levels_in_range_partial`, `C50_levels_binary64_partial`, `C50_first_frame`, `C50_pivot`, `C50_levels_partial`, `C50_present_iff_partial`, `C50_false`, `C50_not_in_binary64`, `C51_pivot`, `C51_bounds`, `C51_bounds_binary64`, `C52_nothing_damaged`, `C52_report_partial`, `C52_false_same_second`, `C52_false_same_ref`, `C53_lookup`, `C54_references_partial`, `C54_false`, `C55_round_nearest`, `C55_round_exists`, `C55_round_mono`, `C55_round_odd`, `C55_round_idem`, `C55_round_exact`, `C56_accounting_in_range_partial`, `C56_closing_is_neutral_in_range_partial`, `C56_accounting_binary64_partial`, `C56_accounting_partial`, `C56_closing_is_neutral_partial`, `C56_not_in_binary64`, `C57_false`, `C57_frame_set_in_step_partial`, `C57_fed_directly_partial`, `C57_noninterference`, `C58_fills`, `C58_openings`, `C58_before_first_tick`, `C59_chronology`, `C60_open_trades_at_last_quote_partial`, `C60_result_partial`, `C60_result_in_range_partial`, `C60_false`, `C60_false_zero_quote`, `C60_false_frame_error`, `C61_profit_of_a_move_partial`, `C61_profit_of_a_move_in_range_partial`, `C62_cost_of_opening_partial`, `C62_cost_of_opening_in_range_partial`, `C63_structure_survives`, `C63_contiguous`, `C63_recorded_in_current`, `C63_lost_when_starting`, `C63_get_frame`, `C63_every_frame_set`, `C64_at_most_one_frame`, `C64_starting_raises`, `C64_raised_but_recorded`, `C64_gap_loses_tick`, `C65_aggregate_of_busy_partial`, `C65_aggregate_partial`, `C65_idle`, `C65_false`, `C66_local`, `C66_memory_and_unit`, `C66_tick_memory`, `C66_equivalent_units`, `C67_between`, `C67_between_in_range`, `C67_limited`, `C68_closed_forever`, `C68_flat_strategy`, `C68_liquidation_is_final`, `C68_negative_close`, `C69_interleaving`, `C69_notifications_differ`, `C69_shared_provider`, `C70_isolation`, `C70_result`, `C70_raising`, `C71_between`, `C71_any_average`, `C71_zero_periods`, `C72_monotone`, `C72_wider_spread_partial`, `C72_false`, `C73_scaling_partial`, `C73_same_exceptions_partial`, `C73_trades_partial`, `C73_strategy_result_partial`, `C73_profit_factor_partial`, `C73_planned`, `C73_false`, `C74_one_zone_partial`, `C74_market_partial`, `C74_false`, `C74_clock_change`, `C75_accepts_iff`, `C75_ordered_partial`, `C75_nan_accepted`, `C75_finite_constructor`, `C75_finite_value`, `C75_frame_nan_first`, `C75_frame_skips_nan`, `C75_frame_counts`, `C75_frame_extremes_partial`, `C75_nan_open`, `C75_nan_extremes_stick`, `C75_nan_update_forgotten`, `C75_finite_trade`, `C75_false`, `C75_entry_quote`, `C75_nan_exit_at_opening`, `C75_infinite_quote`, `C75_closed_again`, `C75_infinite_tick`, `C75_infinite_spread`, `C76_once`, `C76_order`, `C76_openings`, `C76_closes`, `C76_kept`, `C76_close`, `C76_close_opened`, `C76_open`, `C76_silent`, `C76_wrong_broker`, `C77_flat`, `C77_invariant`, `C77_market`, `C77_registered`, `C77_requests`, `C77_quantities`, `C77_chronology`, `C77_growing_dict`, `C77_conservative`, `C77_callbacks_false`, `C78_books`, `C78_totals`, `C78_complete`, `C78_strategy_results`, `C79_separate_partial`, `C79_exceptions_partial`, `C79_false`, `C80_translation_partial`, `C80_same_exceptions_partial`, `C80_from_start_partial`, `C80_trades_partial`, `C80_strategies_partial`, `C80_indicators_partial`, `C80_heikin_partial`, `C80_trend_partial`, `C80_false`, `C80_zero_false`, `C81_isolated_partial`, `C81_alone_partial`, `C81_same_partial`, `C81_false`, `C82_read_back`, `C82_int`, `C82_date_partial`, `C82_instant_partial`, `C82_instant_false`, `C82_trades_partial`, `C82_report_partial`, `C82_strategies`, `C83_weeks_partial`, `C83_fixed_zones_partial`, `C83_trades_partial`, `C83_strategies_partial`, `C83_frames_partial`, `C83_callbacks_partial`, `C83_exceptions_partial`, `C83_trend_partial`, `C83_false`, `C83_years_false`, `C83_days_false`, `C84_mirror_partial`, `C84_trades_partial`, `C84_strategies_partial`, `C84_callbacks_partial`, `C84_exceptions_partial`, `C84_frames_partial`, `C84_indicators_partial`, `C84_candles_partial`, `C84_rsi_partial`, `C84_trend_partial`, `C84_false`, `C84_spread_false`, `C84_zero_false`, `C84_flat_false`, `C85_names`, `C85_trades`, `C85_strategies`, `C85_frames`, `C85_indicators`, `C85_exceptions`, `C85_trend`, `C85_same_name`, `C86_separate`, `C86_merged`, `C86_in_order_partial`, `C86_false`, `C86_market`, `C86_day_split`, `C87_live_partial`, `C87_exceptions_partial`, `C87_one_sided_partial`, `C87_false`, `C87_zero_false`, `C88_in_force`, `C88_market_open`, `C88_market_start`, `C88_callbacks`, `C88_frames`, `C88_revalued_partial`, `C88_empty_days`, `C88_false`, `C89_assignment`, `C89_ticks`, `C89_market_open`, `C89_tick_in_frame`, `C89_terminates`, `C89_boundaries`, `C89_no_gap`, `C89_unaffected_partial`, `C89_without`, `C89_false`, `C90_repeat`, `C90_program`, `C90_accepted`, `C90_trade`, `C90_open_trades`, `C90_tick_frames`, `C91_bars`, `C91_four_ticks`, `C91_seconds`, `C91_market_change`, `C91_trades`, `C92_in_session`, `C92_flat_overnight`, `C92_raising_false`, `C93_instance`, `C93_frames`, `C93_frames_without_exceptions`, `C93_no_frames`, `C93_class`, `C93_values_partial`, `C93_tick_values_partial`, `C93_values_false`, `C94_stop_loss_partial`, `C94_stop_loss_spec`, `C94_shared_false`, `C94_raising_false`, `C95_operation`, `C95_limit`, `C95_net`, `C95_count`, `C95_negative`, `C96_states`, `C96_items`, `C96_list`, `C96_used_up`, `C96_callback`, `C96_code`, `C96_for`, `C96_close_opened`, `C97_flat`, `C97_market`, `C97_told`, `C97_registered`, `C97_quantities`, `C97_frames`, `C97_conservative`, `C97_provider_false`, `C98_conservative`, `C98_books`, `C98_totals`, `C98_registered`, `C98_quantities`, `C98_open_is_place`, `C98_placed`, `C98_exposure`, `C98_others`, `C98_custom`, `C98_request`, `C98_request_refused`, `C98_twice_false`, `C98_resubmit_false`, `C98_elsewhere_false`, `C99_quotes`, `C99_setters`, `C99_shape`, `C99_objects`, `C99_conservative`, `C99_before`, `C99_extremes_partial`, `C99_order_false`, `C99_extremes_false`, `C99_closed_false`, `C100_loop`, `C100_tick`, `C100_take_profit`, `C100_trailing`, `C100_last_false`, `C101_memory`, `C101_count`, `C101_same`, `C101_unit`, `C101_inside_partial`, `C101_ticks`, `C101_inside_false`, `C101_overlap_false`, `C102_frames`, `C102_sma`, `C102_rsi`, `C102_candles`, `C102_pivots`, `C102_heikin`, `C102_heikin_decays`, `C102_heikin_endless`, `C103_ticks`, `C103_tick_in_frame`, `C103_before_end`, `C103_zone`, `C103_assignment`, `C103_local`, `C103_boundaries`, `C103_no_gap`, `C103_terminates`, `C103_one_zone`, `C103_unaffected_partial`, `C103_false`, `C103_any_order_false`, `C104_bounds`, `C104_fits`, `C104_refused`, `C104_step`, `C104_run`, `C104_years`, `C104_terminates_partial`, `C104_negative`, `C104_hang`, `C104_false`, `C104_conversion`, `C104_epic`, `C104_any_zone`, `C104_epic_any_zone`, `C104_world`, `C104_world_refused`, `C105_dict`, `C105_rebuild`, `C105_text_dict`, `C105_text`, `C105_sorted`, `C105_sorted_false`, `C105_utc_sorted`, `C105_zone_sorted_false`, `C105_epic`, `C106_extremes_partial`, `C106_between_partial`, `C106_brokers_partial`, `C106_requote`, `C106_result_partial`, `C106_idle_partial`, `C106_false`, `C107_values`, `C107_levels`, `C107_pivot_false`, `C108_written`, `C108_kept`, `C108_raises`, `C108_no_summary`, `C108_retry`, `C108_agrees`, `C108_slash`, `C108_summary_only`, `C108_false`, `C109_account`, `C109_flat`, `C109_near`, `C109_all`, `C109_direct_false`, `C109_account_in_range`, `C109_flat_in_range`, `C110_no_free_lunch`, `C110_between`, `C110_epic_false`, `C110_placeholder_false`, `C110_between_in_range`, `C111_books`, `C111_epics`, `C111_twins`, `C112_open_raises`, `C112_open_ignores`, `C112_open_effect`, `C112_strategy_open`, `C112_close_effect`, `C112_close_raises`, `C112_close_atomic`, `C112_close_opened`, `C112_close_opened_fits`, `C112_step`, `C112_program`, `C112_callbacks`, `C112_atomic_false`, `C113_company`, `C113_result`, `C113_twins`, `C113_name_false`, `C114_markets`, `C114_alone`, `C114_result`, `C114_shared_false`, `C115_account`, `C115_own_partial`, `C115_blank`, `C116_units_partial`, `C116_conservative`, `C116_binary64_partial`, `C116_tenths_false`, `C116_false`, `C116_rest_false`, `C116_net_partial`, `C116_netted_partial`, `C116_net_value`, `C116_net_false`, `C116_drift`, `C116_tolerance_partial`, `C117_half_cent`, `C117_close`, `C117_adds_up_false`, `C117_false`, `C117_whole_partial`, `C117_half_cent_in_range`, `C118_exact`, `C118_units_partial`, `C118_near`, `C118_cents_partial`, `C118_closed_result`, `C118_sma_model`, `C118_sma_near_partial`, `C118_tenths_false`, `C118_sma_false`, `C118_cancel_false`, `C118_false`
* **Quot.sound, propext** (3 theorems): `C04_false`, `C06_false`, `C105_utc`
* **none** (1 theorems): `C06_zero_year_accepted`
* **propext** (2 theorems): `C115_shared_false`, `C115_alias_false`

## 8. Building and checking

`cd lean && lake build`. `tools/props.py` writes properties.jsonl, `tools/manifest.py` writes MANIFEST.json.
