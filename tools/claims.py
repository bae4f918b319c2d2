n('C01','proved','any float format')
n('C02','partial','cents and lower bound for any float format; both bounds by the rounded quotes in full for binary64 (C02_value_between_binary64) and exact arithmetic; distance from the mid: 0.0075 in exact arithmetic, below a cent in binary64 for quotes up to 2^37, false in binary64 for huge quotes (C02_not_in_binary64); two-decimal quotes: between bid and ask in exact arithmetic and in binary64 up to 2^36. C02_value_outside_quotes: the value need not lie between unrounded quotes.')
n('C03','proved','any zone whose shift only moves forward; the raising case is characterised (YEAR quantity larger than the year)')
n('C04','partial','start: every datetime. End: C04_frame_end_least_partial for zones whose clock changes skip no aligned instant (paris2019_keeps_days: day frames in Paris), C04_frame_end_existing_partial for every zone with the skipped wall clocks resolved; false when a clock change skips an aligned instant (C04_false)')
n('C05','proved','zones whose clock changes skip no aligned instant, fixed offsets included')
n('C06','partial','false for negative quantities (C06_false) and zero ticks/years; positive quantities proved, behaviour for all integers in C06_decision')
n('C55','proved','selection, monotonicity, oddness, idempotence for any float format')
n('C07','proved','every zone whose shift only moves forward (DST included), any indicators')
n('C08','proved','histories in which no aligned instant is skipped by a clock change (Spec.NoneSkipped), fixed offsets included; C08_overlap_at_clock_change and C09_skipped_instant show that the restriction is needed')
n('C09','partial','histories in which no aligned instant is skipped by a clock change (Spec.NoneSkipped), for one tick this is exact (C09_skipped_instant); declarative description of each frame, of the first and last frame and of the number of frames kept. False when a clock change skips a frame boundary (C09_false)')
n('C10','partial','blocks proved; the clause on dates is false (C10_day_split_false): the epic has already replaced its last tick when the frame set compares dates. Without an epic every tick gets its own frame (C10_detached_one_frame_per_tick).')
n('C11','proved','')
n('C12','partial','links and evicted frames proved; "once closed stays closed" is false for frames dropped from memory (C12_stays_closed_false), proved for those in memory')
n('C13','partial','proved for positive quantities, every zone; false for negative quantities, which the constructor accepts (C13_false, C13_negative_quantity_diverges, in a calendar without end; with the years 1 to 9999 the loop ends with an exception in zones of constant offset, C104_negative, and does not end at a clock change, C104_false)')
n('C22','proved','any float format; the closes equal those of an independent ledger. Negative quantities (outside the statement) enlarge the position (C22_negative_close_grows).')
n('C23','proved','exact arithmetic against an independent account; float-level formula in C23_result_in_floats; in binary64 the rounded result is the float of the exact account within an explicit range (C23_result_in_range, C23_result_binary64). result_avg raises for quantity 0.')
n('C24','proved','any float format; a negative close reopens (C24_negative_close_reopens)')
n('C25','partial','proved for exact arithmetic, and for updates without closes in any float format; false for binary64 (C25_false: -0.30000000000000004 becomes -0.3 on closing); a direct close is not counted (C25_direct_close_not_counted)')
n('C26','partial','proved in any float format for a non-zero exit quote; false for a closing quote of 0 (C26_false). Round trips on one tick are proved for all quotes.')
n('C27','partial','exact arithmetic; false with binary64 rounding (C27_not_in_binary64); within an explicit range the rounded results agree in binary64 (C27_split_close_in_range_partial)')
n('C28','proved','any float format')
n('C14','proved','negative offsets count from the oldest frame (C14_negative_offset)')
n('C15','proved','every command sequence, callbacks arbitrary')
n('C16','partial','the instant is preserved; that every chronological tick is accepted is false in zones that set clocks back (C16_false), proved for zones whose wall clock never goes back')
n('C17','proved','')
n('C21','proved','')
n('C57','partial','false when a frame set registered earlier on the epic raises (C57_false); proved otherwise, also when the frame set itself raises; non-interference of other epics proved in full')
n('C29','partial','false for epics that share a provider (C29_false): every open trade of the provider is revalued; proved per provider and for epics alone on theirs')
n('C30','partial','the netting itself is proved in full; the resulting exposure is false when an earlier trade is netted out exactly (C30_false), with the exact condition in C30_exposure_iff')
n('C31','proved','')
n('C32','proved','')
n('C33','proved','')
n('C34','proved','')
n('C36','partial','only_after stops at the first earlier trade: false for trades out of order (C36_false), proved for trades in order and for the other filters, and in every reachable state for strategies on one epic (C36_one_epic_partial)')
n('C37','partial','result([]) is the result of all trades (C37_false); proved for every other argument; order independence in exact arithmetic and, within an explicit range, in binary64 (C37_result_in_range_partial, C37_order_in_range)')
n('C38','proved','any float format')
n('C39','proved','')
n('C56','partial','exact arithmetic; false with binary64 rounding (C56_not_in_binary64); within an explicit range it holds in binary64 up to the rounding to cents (C56_accounting_in_range_partial, C56_accounting_binary64_partial, C56_closing_is_neutral_in_range_partial)')
n('C18','proved','general theorem (user code may change switches during the tick) and a closed form when it does not; raising ticks tell a prefix')
n('C19','partial','false when another strategy registered before raises at the opening tick (C19_false); proved for runs whose ticks do not raise, for every run in which the strategy is called at the ticks where the market opens or closes (C19_heard_partial), and for the strategy registered first whatever the strategies raise (C19_first_partial); C19_tick says what is heard at a single tick with exceptions')
n('C20','partial','stopped: proved in full; paused: false for strategies on two epics (C20_false), proved in full for strategies on one epic (C20_single_epic) and up to and from the first tick not before T in general')
n('C35','proved','thread steps are atomic and happen between operations (also inside callbacks); custom request methods may only set a status; direct trade.close calls are not sent to a provider and are excluded from the confirmation of closes')
n('C52','partial','false when the report files exist already (C52_false_same_second) or two strategies share a reference (C52_false_same_ref); proved otherwise; nothing existing is ever damaged (C52_nothing_damaged)')
n('C53','proved','')
n('C54','partial','distinctness is false (C54_false: only the first five hexadecimal digits are kept, and any 16^5+1 objects collide); the rest is proved')
n('C45','partial','proved for averages not restricted to an open market, any float format (exact-arithmetic form in C45_sma_exact_partial), any memory limit; false for market_open_only averages (C45_false), which also depend on the memory limit (C45_market_open_only_memory). In floats the value is within half a cent + M/2^29 of the exact mean of closes bounded by M, for at most 2^20 periods (C45_sma_in_floats_partial)')
n('C46','partial','proved for max_periods >= 2 and any moments of registration; false for max_periods = 1 (C46_false)')
n('C47','partial','range: proved in full for any float format; extremes: N >= 2, at least two frames in memory, any float format; no exceptions: proved in binary64 (windows of at most 2^100 frames) and in exact arithmetic, for every registered indicator with a non-zero window. False for N = 1 (C47_false); RSI(0) is accepted and raises at the first tick (C47_zero_periods_raises)')
n('C48','partial','N >= 2 and at least two frames in memory: presence for any float format, value for exact arithmetic, and within 0.0051 of the exact RSI in binary64 for N <= 2^20 (C48_value_in_floats_partial, C48_value_in_binary64_partial). False for N = 1 (C48_false)')
n('C49','partial','the check is proved; the frame set is not left unchanged (C49_false, C49_stays_registered)')
n('C40','proved','general groups of deliveries, periods for timed frame sets and blocks for TICK frame sets')
n('C41','proved','')
n('C42','partial','order: proved in full for any float format; parts and colour: false for candles that open or end at 0 (C42_false), proved otherwise; the sum is proved for exact arithmetic and false in binary64 (C42_not_in_binary64), true in binary64 within an explicit range for values in cents (C42_sum_in_range_partial)')
n('C43','partial','first, high, low and last of Japanese candles and last of Heikin-Ashi candles never change; close is lost when the frame is dropped from memory (C43_close_false); the Heikin-Ashi open changes when an older frame is dropped (C43_heikin_open_false)')
n('C44','proved','order and chain for any float format; last within the range of the ticks for exact arithmetic and for binary64 (C44_last_binary64)')
n('C50','partial','pivot formula and absence for any float format; levels: exact arithmetic and pivot different from 0; false for a pivot of 0 (C50_false) and for large prices in binary64 (C50_not_in_binary64); true in binary64 within an explicit range (C50_levels_in_range_partial, C50_levels_binary64_partial)')
n('C51','proved','formula for any float format; bounds for exact arithmetic and for binary64 (C51_bounds_binary64)')

n('C58','proved','openings also with direct closes (C58_openings); before the first tick trades are filled at 0 on 1900-01-01 (C58_before_first_tick)')
n('C59','proved','')
n('C60','partial','false for epics sharing a provider (C60_false), for quotes with one side at 0 (C60_false_zero_quote) and after a frame set raised (C60_false_frame_error); proved when none of the three occurs; results in exact arithmetic, and in binary64 within an explicit range')
n('C61','partial','exact arithmetic, and binary64 within an explicit range; under the conditions of C60')
n('C62','partial','exact arithmetic, and binary64 within an explicit range; under the conditions of C60')
n('C63','proved','for every frame set of every run (C63_every_frame_set)')
n('C64','proved','')
n('C65','partial','false when the coarse period starts with fine frames that fill a gap: they repeat an earlier tick (C65_false); proved over the fine frames that hold ticks of their own period, and over all fine frames if the first one does')
n('C66','proved','')
n('C67','proved','')
n('C68','proved','')
n('C69','proved','')
n('C70','proved','')
n('C71','proved','')
n('C72','partial','any float format, trade level; the spread form excludes a zero exit quote on the opening tick, where it is false (C72_false)')
n('C73','partial','whole programs, exact arithmetic; user code that scales its quantities and decides the same (C73_planned: any code deciding on quotes, frames and indicators). False for the profit factor of a strategy that has lost less than 1 (C73_false), because its divisor is then 1')
n('C74','partial','same world when each object stays in one zone; for any sharing and clocks that never go back, same acceptance, market states, frames and indicators. False for is_market_open() between ticks (C74_false), and for acceptance when clocks go back (C74_clock_change)')
n('C75','partial','own model of ticks, trades and frame extremes over all floats (Special.lean). False for NaN and for overflowing finite quotes (C75_false); proved: exact acceptance, order without NaN, frame extremes when the first tick has a value, what NaN and infinite quotes do to ticks, frames and trades, and agreement with the rest of the model on ordinary numbers')
n('C76','proved','all reachable worlds; per operation what is requested and where. Closing a trade through an epic other than its own asks that epic\'s provider (C76_wrong_broker)')
n('C77','proved','pauses and notifications are not part of the flat equivalence; a nested tick can make a strategy hear of the close of a market it never heard open (C77_callbacks_false). The recursion limit counts nested ticks')
n('C78','proved','all reachable worlds; C78_complete for programs without negative quantities; C78_strategy_results with exact arithmetic')
n('C79','partial','proved for all runs in which no RSI object is added to frame sets of different unit quantities (all other indicators may be shared freely); false otherwise (C79_false)')
n('C80','partial','whole programs, exact arithmetic, an even number of cents, no quote 0 before or after the shift, callbacks that take the same decisions (C80_trend_partial: an example that reads frames and ticks). False for an odd number of cents (C80_false: halves are rounded to even cents) and for an exit quote of 0 (C80_zero_false)')
n('C81','partial','every history of registrations and ticks on one frame set in which no tick raises an exception, any set of indicators kept; built-in indicators. False when an indicator raises (C81_false: an RSI of 0 periods stops the frames from being made)')
n('C82','partial','every file, every content of the cells (quotes, commas, line breaks); references, status, direction, quantities, counts exactly, opening date to the second of the wall clock; texts of floats are those of an arbitrary function. The instant of the opening is not in the file (C82_instant_false: the repeated hour of a clock change)')
n('C83','partial','all programs whose frame sets count ticks, seconds, minutes, hours, days or weeks, all zones (the later run has the clock changes later), every epic gets its first tick before anything but registrations and ticks happens (those of epics with strategies after the other epics). False for frames of months and years (C83_false, C83_years_false), and for shifts that are no whole weeks (C83_days_false)')
n('C84','partial','exact arithmetic; c an even number of cents, spreads in whole cents, no quote 0 or c, programs without RSI (the RSI itself is covered by C84_rsi_partial); every epic gets its first tick before anything but registrations and ticks happens. False for an odd number of cents (C84_false), other spreads (C84_spread_false), quotes of 0 (C84_zero_false) and the RSI of a market that did not move (C84_flat_false)')
n('C85','proved','third instance of Lemmas/Mapping, without restrictions on arithmetic, ticks or programs; the renaming must be injective (C85_same_name); references of trades and providers occur in reports only')
n('C86','partial','epics of one timezone; no influence between epics without sharing and the merged history are proved in full, the period of each tick when the merged ticks are in order. False otherwise (C86_false: each epic checks the order of its own ticks only)')
n('C87','partial','proved for programs that never open a trade against an open one of the same strategy and open positive quantities, in particular strategies of one direction each. False otherwise (C87_false: netting is only in the class for backtests; C87_zero_false)')
n('C88','partial','schedules, market state, callbacks and frames: proved in full; revaluation of open trades as long as the provider is not replaced, false otherwise (C88_false). Assignments inside callbacks: C97')
n('C89','partial','everything but contiguity: proved for zones of constant offset; frames overlap where the zone changes unless the boundaries are the same in both zones (C89_false, C89_unaffected_partial). One epic with one frame set, without strategies; C89_without relates it to whole worlds')
n('C90','proved','for frame sets of time units of which none raises an exception (frames of a number of ticks count a repetition: C90_tick_frames)')
n('C91','proved','for programs in which no tick is refused and no frame set raises an exception; frame sets of seconds, open trades and minutes with a market change are outside the claim and do differ (C91_seconds, C91_trades, C91_market_change)')
n('C92','proved','no trades are opened for the strategy by the main program or by other strategies; the hypothesis on exceptions is needed (C92_raising_false)')
n('C93','partial','the statement on values is proved for truthy objects and is false of the code for falsy ones (C93_values_false); user code is assumed to change nothing but its own value object')
n('C94','partial','proved in exact arithmetic for quotes in cents, own providers and ticks without exceptions; false of the code with shared providers (C94_shared_false) or when another strategy raises (C94_raising_false)')
n('C95','proved','for non-negative quantities, as stated; C95_negative is the witness that they are needed')
n('C96','proved','as stated; Spec.Later (lists only grow, epics and dates stay, closed trades stay closed) holds between states of runs with non-negative quantities (C96_states, C96_code)')
n('C97','proved','as stated; that the list is the one of the provider of the epic (C77) fails once the provider is replaced (C97_provider_false)')
n('C98','proved','as stated; C98_books, C98_totals, C98_others and C98_custom hold for all programs, the others for programs that hand each trade over once; the last sentence is C98_twice_false, C98_resubmit_false and C98_elsewhere_false')
n('C99','partial','everything but the extremes as stated; the extremes are false for an object assigned after it was fed (C99_extremes_false: high_tick is chosen when a tick comes), proved if no object is assigned after it was fed (C99_extremes_partial). One frame set without indicators')
n('C100','proved','as stated; the last sentence is C100_last_false (a later strategy revalues the trade)')
n('C101','partial','C101_inside_partial: the tick is in its frame if the assigned quantities are at most that of the constructor; false otherwise (C101_inside_false: the end still comes from the first quantity) and overlaps occur even then (C101_overlap_false); the parts on memory, unit and frames of ticks are proved as stated')
n('C102','proved','C102_heikin_endless: for every N two sets with N + 1 common frames whose latest Heikin-Ashi opens are 2 and 0')
n('C103','partial','everything but contiguity, which is false (C103_false: days in UTC followed by a day two hours to the west). That timezones do not matter is proved for timed frame sets with indicators of all hours and boundaries that are the same instants (C103_unaffected_partial). A tick out of order goes to a frame that begins after it (C103_any_order_false). Zones of constant offset; one tick object per call; without strategies and trades')
n('C104','partial','proved but for the last sentence, which is false of negative quantities in timezones with clock changes (C104_false, C104_hang: hour frames of quantity -1 in Paris on the day when clocks go forward, where the code hangs); true for positive quantities in all timezones, and for negative ones in zones of constant offset (C104_terminates_partial). Exactly which ticks are refused for zones of constant offset; that none is in the years 2 to 9997 for all zones: frame sets, epics, and whole programs with strategies and trades (C104_any_zone, C104_epic_any_zone, C104_world)')
n('C105','proved','the exceptions stated (years before 1000, clocks going back) are proved with witnesses (C105_sorted_false, C105_zone_sorted_false). The text of floats is a parameter, assumed to tell floats apart and to have no spaces, commas and parentheses; years are not padded by strftime (glibc)')
n('C106','partial','false as stated (C106_false): TradeProviderBacktests.open_trade reduces the quantity of a new trade after its extremes were recorded. Proved: the statement itself for systems without backtest providers (C106_brokers_partial, exact arithmetic); with them, the result is never below min_result, and above max_result only while nothing was closed and one result was recorded; revaluation (C106_requote) in full; results of strategies in exact arithmetic')
n('C107','proved','the levels that disappear are proved with a witness (C107_pivot_false); Heikin-Ashi candles do repaint (C43_heikin_open_false). Ticks that raise are not among the continuations (C63)')
n('C108','proved','partial files of a write that fails in the middle (disk full) are not covered: a file is opened or not; paths are compared as they are spelled. That every strategy gets its files is false for references with a slash (C108_false)')
n('C109','proved','exact arithmetic: equality for prices in whole cents, C109_near for all prices. Floats: equality for prices that are floats of cents and amounts within range (C109_account_in_range). False for programs that call trade.close themselves (C109_direct_false)')
n('C110','proved','sign in every float format, bounds in exact arithmetic and, for amounts within range, in floats. Comparing only ticks of the same epic is not enough, because ticks of other epics of the provider value its trades (C110_epic_false); trades opened before the first tick are bought at 0 (C110_placeholder_false)')
n('C111','proved','with two epics of the same reference the strategy does not list the first one (C111_twins)')
n('C112','proved','that a call which raises changes nothing is true of openings only: a failing close revalues its trade first (C112_atomic_false), which shows unless the trade is valued at the last tick already (C112_close_atomic). Quantities are ints or no numbers at all; ref and meta are not looked at')
n('C113','proved','the strategy sees the epics with their frames, its own activity and its own trades without statuses; strategy.epics and the provider lists are not part of it. Callbacks do not register objects or feed ticks. False when another strategy has the same reference (C113_name_false) or raises (C70_raising)')
n('C114','proved','as C113, for a set of epics with providers of their own, at the same positions and with the same provider indices in both systems; what the strategy sees is restricted to these epics. False if a provider is shared with a foreign epic (C114_shared_false)')
n('C115','partial','C115_account says for every program what is found. The claim holds for dictionaries given to one object and not written to by the program any more (C115_own_partial) and for empty ones (C115_blank); false of the code for dictionaries given to several objects (C115_shared_false) or written to later (C115_alias_false)')
n('C116','partial','holds for quantities that are multiples, up to 2^53 times, of a unit whose multiples are floats (C116_units_partial, C116_net_partial, C116_netted_partial; powers of 2 in binary64: C116_binary64_partial; whole quantities in every format, where the model is that of Trade.lean: C116_conservative). False of other floats in binary64 (C116_false, C116_tenths_false, C116_rest_false, C116_net_false), but true up to the 2^-50th part of the quantity opened for each close (C116_drift, C116_tolerance_partial). Netting closes at the present value in every format (C116_net_value). Single trades and the netting loop, without minima, maxima and the world around')
n('C117','partial','the bound of half a cent per close is C117_half_cent and C117_close with exact arithmetic; in floats it is half a cent per close and a tenth of a cent, for prices of cents and quantities within a range (C117_half_cent_in_range); without loss for whole quantities (C117_whole_partial); it cannot be improved, and the losses add up (C117_adds_up_false, C117_false)')
n('C118','partial','equality for exact arithmetic (C118_exact) and for multiples of a unit (C118_units_partial); equality after rounding for amounts of cents within a range (C118_cents_partial); nearness in general (C118_near, C118_closed_result). False without rounding (C118_false, C118_tenths_false, C118_cancel_false) and of moving averages (C118_sma_false), which differ by at most one cent within a range (C118_sma_near_partial; C118_sma_model ties the averages to the model of the indicator). The functions that call sum are given with the new sum beside the models of the earlier versions, which the other properties are about')
