{
 "claims": [
  {
   "property": "C01",
   "status": "proved",
   "theorems": [
    "Estrade.C01_tick_accepts_iff",
    "Estrade.C01_tick_rejects_iff",
    "Estrade.C01_tick_ordered"
   ],
   "note": "any float format"
  },
  {
   "property": "C02",
   "status": "partial",
   "theorems": [
    "Estrade.C02_value_cents",
    "Estrade.C02_value_ge",
    "Estrade.C02_value_between_partial",
    "Estrade.C02_value_near_mid_partial",
    "Estrade.C02_value_cent_quotes_partial",
    "Estrade.C02_not_in_binary64",
    "Estrade.C02_value_outside_quotes",
    "Estrade.C02_value_near_mid_in_range_partial",
    "Estrade.C02_value_cent_quotes_in_range_partial",
    "Estrade.C02_value_le_binary64",
    "Estrade.C02_value_between_binary64"
   ],
   "note": "cents and lower bound for any float format; both bounds by the rounded quotes in full for binary64 (C02_value_between_binary64) and exact arithmetic; distance from the mid: 0.0075 in exact arithmetic, below a cent in binary64 for quotes up to 2^37, false in binary64 for huge quotes (C02_not_in_binary64); two-decimal quotes: between bid and ask in exact arithmetic and in binary64 up to 2^36. C02_value_outside_quotes: the value need not lie between unrounded quotes."
  },
  {
   "property": "C03",
   "status": "proved",
   "theorems": [
    "Estrade.C03_frame_brackets",
    "Estrade.C03_frame_start_raises_iff"
   ],
   "note": "any zone whose shift only moves forward; the raising case is characterised (YEAR quantity larger than the year)"
  },
  {
   "property": "C04",
   "status": "partial",
   "theorems": [
    "Estrade.C04_frame_start_greatest",
    "Estrade.C04_frame_end_least_partial",
    "Estrade.C04_frame_end_existing_partial",
    "Estrade.C04_false"
   ],
   "note": "start: every datetime. End: C04_frame_end_least_partial for zones whose clock changes skip no aligned instant (paris2019_keeps_days: day frames in Paris), C04_frame_end_existing_partial for every zone with the skipped wall clocks resolved; false when a clock change skips an aligned instant (C04_false)"
  },
  {
   "property": "C05",
   "status": "proved",
   "theorems": [
    "Estrade.C05_start_idempotent",
    "Estrade.C05_start_mono",
    "Estrade.C05_end_is_start",
    "Estrade.C05_same_frame_iff"
   ],
   "note": "zones whose clock changes skip no aligned instant, fixed offsets included"
  },
  {
   "property": "C06",
   "status": "partial",
   "theorems": [
    "Estrade.C06_false",
    "Estrade.C06_zero_year_accepted",
    "Estrade.C06_validation_partial",
    "Estrade.C06_decision"
   ],
   "note": "false for negative quantities (C06_false) and zero ticks/years; positive quantities proved, behaviour for all integers in C06_decision"
  },
  {
   "property": "C07",
   "status": "proved",
   "theorems": [
    "Estrade.C07_tick_in_current_frame"
   ],
   "note": "every zone whose shift only moves forward (DST included), any indicators"
  },
  {
   "property": "C08",
   "status": "proved",
   "theorems": [
    "Estrade.C08_frames_contiguous",
    "Estrade.C08_overlap_at_clock_change"
   ],
   "note": "histories in which no aligned instant is skipped by a clock change (Spec.NoneSkipped), fixed offsets included; C08_overlap_at_clock_change and C09_skipped_instant show that the restriction is needed"
  },
  {
   "property": "C09",
   "status": "partial",
   "theorems": [
    "Estrade.C09_frames_are_periods_partial",
    "Estrade.C09_skipped_instant",
    "Estrade.C09_false"
   ],
   "note": "histories in which no aligned instant is skipped by a clock change (Spec.NoneSkipped), for one tick this is exact (C09_skipped_instant); declarative description of each frame, of the first and last frame and of the number of frames kept. False when a clock change skips a frame boundary (C09_false)"
  },
  {
   "property": "C10",
   "status": "partial",
   "theorems": [
    "Estrade.C10_tick_blocks_partial",
    "Estrade.C10_day_split_false",
    "Estrade.C10_detached_one_frame_per_tick"
   ],
   "note": "blocks proved; the clause on dates is false (C10_day_split_false): the epic has already replaced its last tick when the frame set compares dates. Without an epic every tick gets its own frame (C10_detached_one_frame_per_tick)."
  },
  {
   "property": "C11",
   "status": "proved",
   "theorems": [
    "Estrade.C11_memory_keeps_latest",
    "Estrade.C11_creations_append"
   ],
   "note": ""
  },
  {
   "property": "C12",
   "status": "partial",
   "theorems": [
    "Estrade.C12_links_mirror_list",
    "Estrade.C12_evicted_unlinked",
    "Estrade.C12_stays_closed_false",
    "Estrade.C12_stays_closed_partial"
   ],
   "note": "links and evicted frames proved; \"once closed stays closed\" is false for frames dropped from memory (C12_stays_closed_false), proved for those in memory"
  },
  {
   "property": "C13",
   "status": "partial",
   "theorems": [
    "Estrade.C13_gap_filling_terminates_partial",
    "Estrade.C13_fuel_irrelevant",
    "Estrade.C13_negative_quantity_diverges",
    "Estrade.C13_false"
   ],
   "note": "proved for positive quantities, every zone; false for negative quantities, which the constructor accepts (C13_false, C13_negative_quantity_diverges, in a calendar without end; with the years 1 to 9999 the loop ends with an exception in zones of constant offset, C104_negative, and does not end at a clock change, C104_false)"
  },
  {
   "property": "C14",
   "status": "proved",
   "theorems": [
    "Estrade.C14_get_frame",
    "Estrade.C14_current",
    "Estrade.C14_unknown",
    "Estrade.C14_indicator_value",
    "Estrade.C14_negative_offset"
   ],
   "note": "negative offsets count from the oldest frame (C14_negative_offset)"
  },
  {
   "property": "C15",
   "status": "proved",
   "theorems": [
    "Estrade.C15_anterior_rejected",
    "Estrade.C15_accepted",
    "Estrade.C15_non_decreasing"
   ],
   "note": "every command sequence, callbacks arbitrary"
  },
  {
   "property": "C16",
   "status": "partial",
   "theorems": [
    "Estrade.C16_instant_preserved",
    "Estrade.C16_false",
    "Estrade.C16_chronological_accepted_partial"
   ],
   "note": "the instant is preserved; that every chronological tick is accepted is false in zones that set clocks back (C16_false), proved for zones whose wall clock never goes back"
  },
  {
   "property": "C17",
   "status": "proved",
   "theorems": [
    "Estrade.C17_market_open",
    "Estrade.C17_market_open_always",
    "Estrade.C17_default_days"
   ],
   "note": ""
  },
  {
   "property": "C18",
   "status": "proved",
   "theorems": [
    "Estrade.C18_callbacks",
    "Estrade.C18_callbacks_static",
    "Estrade.C18_nothing_else"
   ],
   "note": "general theorem (user code may change switches during the tick) and a closed form when it does not; raising ticks tell a prefix"
  },
  {
   "property": "C19",
   "status": "partial",
   "theorems": [
    "Estrade.C19_tick",
    "Estrade.C19_heard_partial",
    "Estrade.C19_first_partial",
    "Estrade.C19_alternation_partial",
    "Estrade.C19_false"
   ],
   "note": "false when another strategy registered before raises at the opening tick (C19_false); proved for runs whose ticks do not raise, for every run in which the strategy is called at the ticks where the market opens or closes (C19_heard_partial), and for the strategy registered first whatever the strategies raise (C19_first_partial); C19_tick says what is heard at a single tick with exceptions"
  },
  {
   "property": "C20",
   "status": "partial",
   "theorems": [
    "Estrade.C20_stopped_never_called",
    "Estrade.C20_pause_partial",
    "Estrade.C20_single_epic",
    "Estrade.C20_false"
   ],
   "note": "stopped: proved in full; paused: false for strategies on two epics (C20_false), proved in full for strategies on one epic (C20_single_epic) and up to and from the first tick not before T in general"
  },
  {
   "property": "C21",
   "status": "proved",
   "theorems": [
    "Estrade.C21_frame_set_refused",
    "Estrade.C21_frame_set_added",
    "Estrade.C21_strategy_added",
    "Estrade.C21_references_distinct"
   ],
   "note": ""
  },
  {
   "property": "C22",
   "status": "proved",
   "theorems": [
    "Estrade.C22_closes_are_a_ledger",
    "Estrade.C22_quantities_add_up",
    "Estrade.C22_request_clamped",
    "Estrade.C22_omitted_closes_all",
    "Estrade.C22_negative_close_grows"
   ],
   "note": "any float format; the closes equal those of an independent ledger. Negative quantities (outside the statement) enlarge the position (C22_negative_close_grows)."
  },
  {
   "property": "C23",
   "status": "proved",
   "theorems": [
    "Estrade.C23_result_in_range",
    "Estrade.C23_result_binary64",
    "Estrade.C23_result_is_the_account",
    "Estrade.C23_result_in_floats",
    "Estrade.C23_result_avg",
    "Estrade.C23_closed_result_avg"
   ],
   "note": "exact arithmetic against an independent account; float-level formula in C23_result_in_floats; in binary64 the rounded result is the float of the exact account within an explicit range (C23_result_in_range, C23_result_binary64). result_avg raises for quantity 0."
  },
  {
   "property": "C24",
   "status": "proved",
   "theorems": [
    "Estrade.C24_closed_trade_frozen",
    "Estrade.C24_negative_close_reopens"
   ],
   "note": "any float format; a negative close reopens (C24_negative_close_reopens)"
  },
  {
   "property": "C25",
   "status": "partial",
   "theorems": [
    "Estrade.C25_extremes_partial",
    "Estrade.C25_between_partial",
    "Estrade.C25_updates_any_format",
    "Estrade.C25_false",
    "Estrade.C25_direct_close_not_counted"
   ],
   "note": "proved for exact arithmetic, and for updates without closes in any float format; false for binary64 (C25_false: -0.30000000000000004 becomes -0.3 on closing); a direct close is not counted (C25_direct_close_not_counted)"
  },
  {
   "property": "C26",
   "status": "partial",
   "theorems": [
    "Estrade.C26_open_side_partial",
    "Estrade.C26_invalid_direction",
    "Estrade.C26_valued_at_exit_quote",
    "Estrade.C26_closed_at_exit_quote",
    "Estrade.C26_round_trip",
    "Estrade.C26_round_trip_exact",
    "Estrade.C26_false"
   ],
   "note": "proved in any float format for a non-zero exit quote; false for a closing quote of 0 (C26_false). Round trips on one tick are proved for all quotes."
  },
  {
   "property": "C27",
   "status": "partial",
   "theorems": [
    "Estrade.C27_split_close_in_range_partial",
    "Estrade.C27_split_close_partial",
    "Estrade.C27_not_in_binary64"
   ],
   "note": "exact arithmetic; false with binary64 rounding (C27_not_in_binary64); within an explicit range the rounded results agree in binary64 (C27_split_close_in_range_partial)"
  },
  {
   "property": "C28",
   "status": "proved",
   "theorems": [
    "Estrade.C28_mirror"
   ],
   "note": "any float format"
  },
  {
   "property": "C29",
   "status": "partial",
   "theorems": [
    "Estrade.C29_before_callbacks",
    "Estrade.C29_provider_trades_repriced",
    "Estrade.C29_repriced_partial",
    "Estrade.C29_false"
   ],
   "note": "false for epics that share a provider (C29_false): every open trade of the provider is revalued; proved per provider and for epics alone on theirs"
  },
  {
   "property": "C30",
   "status": "partial",
   "theorems": [
    "Estrade.C30_netting",
    "Estrade.C30_exposure_change",
    "Estrade.C30_exposure_iff",
    "Estrade.C30_exposure_partial",
    "Estrade.C30_false"
   ],
   "note": "the netting itself is proved in full; the resulting exposure is false when an earlier trade is netted out exactly (C30_false), with the exact condition in C30_exposure_iff"
  },
  {
   "property": "C31",
   "status": "proved",
   "theorems": [
    "Estrade.C31_others_untouched"
   ],
   "note": ""
  },
  {
   "property": "C32",
   "status": "proved",
   "theorems": [
    "Estrade.C32_one_side"
   ],
   "note": ""
  },
  {
   "property": "C33",
   "status": "proved",
   "theorems": [
    "Estrade.C33_opened_trades"
   ],
   "note": ""
  },
  {
   "property": "C34",
   "status": "proved",
   "theorems": [
    "Estrade.C34_registered_once",
    "Estrade.C34_opening_order",
    "Estrade.C34_never_removed"
   ],
   "note": ""
  },
  {
   "property": "C35",
   "status": "proved",
   "theorems": [
    "Estrade.C35_schedule_irrelevant",
    "Estrade.C35_confirmed",
    "Estrade.C35_closes_confirmed"
   ],
   "note": "thread steps are atomic and happen between operations (also inside callbacks); custom request methods may only set a status; direct trade.close calls are not sent to a provider and are excluded from the confirmation of closes"
  },
  {
   "property": "C36",
   "status": "partial",
   "theorems": [
    "Estrade.C36_one_epic_partial",
    "Estrade.C36_general",
    "Estrade.C36_no_date",
    "Estrade.C36_filters_partial",
    "Estrade.C36_false"
   ],
   "note": "only_after stops at the first earlier trade: false for trades out of order (C36_false), proved for trades in order and for the other filters, and in every reachable state for strategies on one epic (C36_one_epic_partial)"
  },
  {
   "property": "C37",
   "status": "partial",
   "theorems": [
    "Estrade.C37_result_in_range_partial",
    "Estrade.C37_order_in_range",
    "Estrade.C37_result_in_floats",
    "Estrade.C37_result_partial",
    "Estrade.C37_empty_list",
    "Estrade.C37_order_irrelevant",
    "Estrade.C37_false",
    "Estrade.C37_order_in_binary64"
   ],
   "note": "result([]) is the result of all trades (C37_false); proved for every other argument; order independence in exact arithmetic and, within an explicit range, in binary64 (C37_result_in_range_partial, C37_order_in_range)"
  },
  {
   "property": "C38",
   "status": "proved",
   "theorems": [
    "Estrade.C38_profit_factor",
    "Estrade.C38_exact"
   ],
   "note": "any float format"
  },
  {
   "property": "C39",
   "status": "proved",
   "theorems": [
    "Estrade.C39_closes_everything",
    "Estrade.C39_none_open"
   ],
   "note": ""
  },
  {
   "property": "C40",
   "status": "proved",
   "theorems": [
    "Estrade.C40_values",
    "Estrade.C40_timed_frames",
    "Estrade.C40_tick_frames"
   ],
   "note": "general groups of deliveries, periods for timed frame sets and blocks for TICK frame sets"
  },
  {
   "property": "C41",
   "status": "proved",
   "theorems": [
    "Estrade.C41_navigation",
    "Estrade.C41_dropped_frames"
   ],
   "note": ""
  },
  {
   "property": "C42",
   "status": "partial",
   "theorems": [
    "Estrade.C42_sum_in_range_partial",
    "Estrade.C42_order",
    "Estrade.C42_parts_partial",
    "Estrade.C42_geometry_partial",
    "Estrade.C42_false",
    "Estrade.C42_not_in_binary64"
   ],
   "note": "order: proved in full for any float format; parts and colour: false for candles that open or end at 0 (C42_false), proved otherwise; the sum is proved for exact arithmetic and false in binary64 (C42_not_in_binary64), true in binary64 within an explicit range for values in cents (C42_sum_in_range_partial)"
  },
  {
   "property": "C43",
   "status": "partial",
   "theorems": [
    "Estrade.C43_values_partial",
    "Estrade.C43_heikin_partial",
    "Estrade.C43_close_false",
    "Estrade.C43_heikin_open_false"
   ],
   "note": "first, high, low and last of Japanese candles and last of Heikin-Ashi candles never change; close is lost when the frame is dropped from memory (C43_close_false); the Heikin-Ashi open changes when an older frame is dropped (C43_heikin_open_false)"
  },
  {
   "property": "C44",
   "status": "proved",
   "theorems": [
    "Estrade.C44_order",
    "Estrade.C44_chain",
    "Estrade.C44_last",
    "Estrade.C44_last_exact",
    "Estrade.C44_last_binary64"
   ],
   "note": "order and chain for any float format; last within the range of the ticks for exact arithmetic and for binary64 (C44_last_binary64)"
  },
  {
   "property": "C45",
   "status": "partial",
   "theorems": [
    "Estrade.C45_sma_partial",
    "Estrade.C45_sma_exact_partial",
    "Estrade.C45_memory_independent_partial",
    "Estrade.C45_false",
    "Estrade.C45_market_open_only_memory",
    "Estrade.C45_sma_in_floats_partial"
   ],
   "note": "proved for averages not restricted to an open market, any float format (exact-arithmetic form in C45_sma_exact_partial), any memory limit; false for market_open_only averages (C45_false), which also depend on the memory limit (C45_market_open_only_memory). In floats the value is within half a cent + M/2^29 of the exact mean of closes bounded by M, for at most 2^20 periods (C45_sma_in_floats_partial)"
  },
  {
   "property": "C46",
   "status": "partial",
   "theorems": [
    "Estrade.C46_window_partial",
    "Estrade.C46_false"
   ],
   "note": "proved for max_periods >= 2 and any moments of registration; false for max_periods = 1 (C46_false)"
  },
  {
   "property": "C47",
   "status": "partial",
   "theorems": [
    "Estrade.C47_range",
    "Estrade.C47_extremes_partial",
    "Estrade.C47_never_raises_tick",
    "Estrade.C47_never_raises_timed",
    "Estrade.C47_never_raises_tick_binary64",
    "Estrade.C47_never_raises_timed_binary64",
    "Estrade.C47_never_raises_tick_exact",
    "Estrade.C47_never_raises_timed_exact",
    "Estrade.C47_zero_periods_raises",
    "Estrade.C47_false"
   ],
   "note": "range: proved in full for any float format; extremes: N >= 2, at least two frames in memory, any float format; no exceptions: proved in binary64 (windows of at most 2^100 frames) and in exact arithmetic, for every registered indicator with a non-zero window. False for N = 1 (C47_false); RSI(0) is accepted and raises at the first tick (C47_zero_periods_raises)"
  },
  {
   "property": "C48",
   "status": "partial",
   "theorems": [
    "Estrade.C48_present_partial",
    "Estrade.C48_value_partial",
    "Estrade.C48_false",
    "Estrade.C48_value_in_floats_partial",
    "Estrade.C48_value_in_binary64_partial"
   ],
   "note": "N >= 2 and at least two frames in memory: presence for any float format, value for exact arithmetic, and within 0.0051 of the exact RSI in binary64 for N <= 2^20 (C48_value_in_floats_partial, C48_value_in_binary64_partial). False for N = 1 (C48_false)"
  },
  {
   "property": "C49",
   "status": "partial",
   "theorems": [
    "Estrade.C49_check_partial",
    "Estrade.C49_stays_registered",
    "Estrade.C49_others_never_raise",
    "Estrade.C49_false"
   ],
   "note": "the check is proved; the frame set is not left unchanged (C49_false, C49_stays_registered)"
  },
  {
   "property": "C50",
   "status": "partial",
   "theorems": [
    "Estrade.C50_levels_in_range_partial",
    "Estrade.C50_levels_binary64_partial",
    "Estrade.C50_first_frame",
    "Estrade.C50_pivot",
    "Estrade.C50_levels_partial",
    "Estrade.C50_present_iff_partial",
    "Estrade.C50_false",
    "Estrade.C50_not_in_binary64"
   ],
   "note": "pivot formula and absence for any float format; levels: exact arithmetic and pivot different from 0; false for a pivot of 0 (C50_false) and for large prices in binary64 (C50_not_in_binary64); true in binary64 within an explicit range (C50_levels_in_range_partial, C50_levels_binary64_partial)"
  },
  {
   "property": "C51",
   "status": "proved",
   "theorems": [
    "Estrade.C51_pivot",
    "Estrade.C51_bounds",
    "Estrade.C51_bounds_binary64"
   ],
   "note": "formula for any float format; bounds for exact arithmetic and for binary64 (C51_bounds_binary64)"
  },
  {
   "property": "C52",
   "status": "partial",
   "theorems": [
    "Estrade.C52_nothing_damaged",
    "Estrade.C52_report_partial",
    "Estrade.C52_false_same_second",
    "Estrade.C52_false_same_ref"
   ],
   "note": "false when the report files exist already (C52_false_same_second) or two strategies share a reference (C52_false_same_ref); proved otherwise; nothing existing is ever damaged (C52_nothing_damaged)"
  },
  {
   "property": "C53",
   "status": "proved",
   "theorems": [
    "Estrade.C53_lookup"
   ],
   "note": ""
  },
  {
   "property": "C54",
   "status": "partial",
   "theorems": [
    "Estrade.C54_references_partial",
    "Estrade.C54_false"
   ],
   "note": "distinctness is false (C54_false: only the first five hexadecimal digits are kept, and any 16^5+1 objects collide); the rest is proved"
  },
  {
   "property": "C55",
   "status": "proved",
   "theorems": [
    "Estrade.C55_round_nearest",
    "Estrade.C55_round_exists",
    "Estrade.C55_round_mono",
    "Estrade.C55_round_odd",
    "Estrade.C55_round_idem",
    "Estrade.C55_round_exact"
   ],
   "note": "selection, monotonicity, oddness, idempotence for any float format"
  },
  {
   "property": "C56",
   "status": "partial",
   "theorems": [
    "Estrade.C56_accounting_in_range_partial",
    "Estrade.C56_closing_is_neutral_in_range_partial",
    "Estrade.C56_accounting_binary64_partial",
    "Estrade.C56_accounting_partial",
    "Estrade.C56_closing_is_neutral_partial",
    "Estrade.C56_not_in_binary64"
   ],
   "note": "exact arithmetic; false with binary64 rounding (C56_not_in_binary64); within an explicit range it holds in binary64 up to the rounding to cents (C56_accounting_in_range_partial, C56_accounting_binary64_partial, C56_closing_is_neutral_in_range_partial)"
  },
  {
   "property": "C57",
   "status": "partial",
   "theorems": [
    "Estrade.C57_false",
    "Estrade.C57_frame_set_in_step_partial",
    "Estrade.C57_fed_directly_partial",
    "Estrade.C57_noninterference"
   ],
   "note": "false when a frame set registered earlier on the epic raises (C57_false); proved otherwise, also when the frame set itself raises; non-interference of other epics proved in full"
  },
  {
   "property": "C58",
   "status": "proved",
   "theorems": [
    "Estrade.C58_fills",
    "Estrade.C58_openings",
    "Estrade.C58_before_first_tick"
   ],
   "note": "openings also with direct closes (C58_openings); before the first tick trades are filled at 0 on 1900-01-01 (C58_before_first_tick)"
  },
  {
   "property": "C59",
   "status": "proved",
   "theorems": [
    "Estrade.C59_chronology"
   ],
   "note": ""
  },
  {
   "property": "C60",
   "status": "partial",
   "theorems": [
    "Estrade.C60_open_trades_at_last_quote_partial",
    "Estrade.C60_result_partial",
    "Estrade.C60_result_in_range_partial",
    "Estrade.C60_false",
    "Estrade.C60_false_zero_quote",
    "Estrade.C60_false_frame_error"
   ],
   "note": "false for epics sharing a provider (C60_false), for quotes with one side at 0 (C60_false_zero_quote) and after a frame set raised (C60_false_frame_error); proved when none of the three occurs; results in exact arithmetic, and in binary64 within an explicit range"
  },
  {
   "property": "C61",
   "status": "partial",
   "theorems": [
    "Estrade.C61_profit_of_a_move_partial",
    "Estrade.C61_profit_of_a_move_in_range_partial"
   ],
   "note": "exact arithmetic, and binary64 within an explicit range; under the conditions of C60"
  },
  {
   "property": "C62",
   "status": "partial",
   "theorems": [
    "Estrade.C62_cost_of_opening_partial",
    "Estrade.C62_cost_of_opening_in_range_partial"
   ],
   "note": "exact arithmetic, and binary64 within an explicit range; under the conditions of C60"
  },
  {
   "property": "C63",
   "status": "proved",
   "theorems": [
    "Estrade.C63_structure_survives",
    "Estrade.C63_contiguous",
    "Estrade.C63_recorded_in_current",
    "Estrade.C63_lost_when_starting",
    "Estrade.C63_get_frame",
    "Estrade.C63_every_frame_set"
   ],
   "note": "for every frame set of every run (C63_every_frame_set)"
  },
  {
   "property": "C64",
   "status": "proved",
   "theorems": [
    "Estrade.C64_at_most_one_frame",
    "Estrade.C64_starting_raises",
    "Estrade.C64_raised_but_recorded",
    "Estrade.C64_gap_loses_tick"
   ],
   "note": ""
  },
  {
   "property": "C65",
   "status": "partial",
   "theorems": [
    "Estrade.C65_aggregate_of_busy_partial",
    "Estrade.C65_aggregate_partial",
    "Estrade.C65_idle",
    "Estrade.C65_false"
   ],
   "note": "false when the coarse period starts with fine frames that fill a gap: they repeat an earlier tick (C65_false); proved over the fine frames that hold ticks of their own period, and over all fine frames if the first one does"
  },
  {
   "property": "C66",
   "status": "proved",
   "theorems": [
    "Estrade.C66_local",
    "Estrade.C66_memory_and_unit",
    "Estrade.C66_tick_memory",
    "Estrade.C66_equivalent_units"
   ],
   "note": ""
  },
  {
   "property": "C67",
   "status": "proved",
   "theorems": [
    "Estrade.C67_between",
    "Estrade.C67_between_in_range",
    "Estrade.C67_limited"
   ],
   "note": ""
  },
  {
   "property": "C68",
   "status": "proved",
   "theorems": [
    "Estrade.C68_closed_forever",
    "Estrade.C68_flat_strategy",
    "Estrade.C68_liquidation_is_final",
    "Estrade.C68_negative_close"
   ],
   "note": ""
  },
  {
   "property": "C69",
   "status": "proved",
   "theorems": [
    "Estrade.C69_interleaving",
    "Estrade.C69_notifications_differ",
    "Estrade.C69_shared_provider"
   ],
   "note": ""
  },
  {
   "property": "C70",
   "status": "proved",
   "theorems": [
    "Estrade.C70_isolation",
    "Estrade.C70_result",
    "Estrade.C70_raising"
   ],
   "note": ""
  },
  {
   "property": "C71",
   "status": "proved",
   "theorems": [
    "Estrade.C71_between",
    "Estrade.C71_any_average",
    "Estrade.C71_zero_periods"
   ],
   "note": ""
  },
  {
   "property": "C72",
   "status": "partial",
   "theorems": [
    "Estrade.C72_monotone",
    "Estrade.C72_wider_spread_partial",
    "Estrade.C72_false"
   ],
   "note": "any float format, trade level; the spread form excludes a zero exit quote on the opening tick, where it is false (C72_false)"
  },
  {
   "property": "C73",
   "status": "partial",
   "theorems": [
    "Estrade.C73_scaling_partial",
    "Estrade.C73_same_exceptions_partial",
    "Estrade.C73_trades_partial",
    "Estrade.C73_strategy_result_partial",
    "Estrade.C73_profit_factor_partial",
    "Estrade.C73_planned",
    "Estrade.C73_false"
   ],
   "note": "whole programs, exact arithmetic; user code that scales its quantities and decides the same (C73_planned: any code deciding on quotes, frames and indicators). False for the profit factor of a strategy that has lost less than 1 (C73_false), because its divisor is then 1"
  },
  {
   "property": "C74",
   "status": "partial",
   "theorems": [
    "Estrade.C74_one_zone_partial",
    "Estrade.C74_market_partial",
    "Estrade.C74_false",
    "Estrade.C74_clock_change"
   ],
   "note": "same world when each object stays in one zone; for any sharing and clocks that never go back, same acceptance, market states, frames and indicators. False for is_market_open() between ticks (C74_false), and for acceptance when clocks go back (C74_clock_change)"
  },
  {
   "property": "C75",
   "status": "partial",
   "theorems": [
    "Estrade.C75_accepts_iff",
    "Estrade.C75_ordered_partial",
    "Estrade.C75_nan_accepted",
    "Estrade.C75_finite_constructor",
    "Estrade.C75_finite_value",
    "Estrade.C75_frame_nan_first",
    "Estrade.C75_frame_skips_nan",
    "Estrade.C75_frame_counts",
    "Estrade.C75_frame_extremes_partial",
    "Estrade.C75_nan_open",
    "Estrade.C75_nan_extremes_stick",
    "Estrade.C75_nan_update_forgotten",
    "Estrade.C75_finite_trade",
    "Estrade.C75_false",
    "Estrade.C75_entry_quote",
    "Estrade.C75_nan_exit_at_opening",
    "Estrade.C75_infinite_quote",
    "Estrade.C75_closed_again",
    "Estrade.C75_infinite_tick",
    "Estrade.C75_infinite_spread"
   ],
   "note": "own model of ticks, trades and frame extremes over all floats (Special.lean). False for NaN and for overflowing finite quotes (C75_false); proved: exact acceptance, order without NaN, frame extremes when the first tick has a value, what NaN and infinite quotes do to ticks, frames and trades, and agreement with the rest of the model on ordinary numbers"
  },
  {
   "property": "C76",
   "status": "proved",
   "theorems": [
    "Estrade.C76_once",
    "Estrade.C76_order",
    "Estrade.C76_openings",
    "Estrade.C76_closes",
    "Estrade.C76_kept",
    "Estrade.C76_close",
    "Estrade.C76_close_opened",
    "Estrade.C76_open",
    "Estrade.C76_silent",
    "Estrade.C76_wrong_broker"
   ],
   "note": "all reachable worlds; per operation what is requested and where. Closing a trade through an epic other than its own asks that epic's provider (C76_wrong_broker)"
  },
  {
   "property": "C77",
   "status": "proved",
   "theorems": [
    "Estrade.C77_flat",
    "Estrade.C77_invariant",
    "Estrade.C77_market",
    "Estrade.C77_registered",
    "Estrade.C77_requests",
    "Estrade.C77_quantities",
    "Estrade.C77_chronology",
    "Estrade.C77_growing_dict",
    "Estrade.C77_conservative",
    "Estrade.C77_callbacks_false"
   ],
   "note": "pauses and notifications are not part of the flat equivalence; a nested tick can make a strategy hear of the close of a market it never heard open (C77_callbacks_false). The recursion limit counts nested ticks"
  },
  {
   "property": "C78",
   "status": "proved",
   "theorems": [
    "Estrade.C78_books",
    "Estrade.C78_totals",
    "Estrade.C78_complete",
    "Estrade.C78_strategy_results"
   ],
   "note": "all reachable worlds; C78_complete for programs without negative quantities; C78_strategy_results with exact arithmetic"
  },
  {
   "property": "C79",
   "status": "partial",
   "theorems": [
    "Estrade.C79_separate_partial",
    "Estrade.C79_exceptions_partial",
    "Estrade.C79_false"
   ],
   "note": "proved for all runs in which no RSI object is added to frame sets of different unit quantities (all other indicators may be shared freely); false otherwise (C79_false)"
  },
  {
   "property": "C80",
   "status": "partial",
   "theorems": [
    "Estrade.C80_translation_partial",
    "Estrade.C80_same_exceptions_partial",
    "Estrade.C80_from_start_partial",
    "Estrade.C80_trades_partial",
    "Estrade.C80_strategies_partial",
    "Estrade.C80_indicators_partial",
    "Estrade.C80_heikin_partial",
    "Estrade.C80_trend_partial",
    "Estrade.C80_false",
    "Estrade.C80_zero_false"
   ],
   "note": "whole programs, exact arithmetic, an even number of cents, no quote 0 before or after the shift, callbacks that take the same decisions (C80_trend_partial: an example that reads frames and ticks). False for an odd number of cents (C80_false: halves are rounded to even cents) and for an exit quote of 0 (C80_zero_false)"
  },
  {
   "property": "C81",
   "status": "partial",
   "theorems": [
    "Estrade.C81_isolated_partial",
    "Estrade.C81_alone_partial",
    "Estrade.C81_same_partial",
    "Estrade.C81_false"
   ],
   "note": "every history of registrations and ticks on one frame set in which no tick raises an exception, any set of indicators kept; built-in indicators. False when an indicator raises (C81_false: an RSI of 0 periods stops the frames from being made)"
  },
  {
   "property": "C82",
   "status": "partial",
   "theorems": [
    "Estrade.C82_read_back",
    "Estrade.C82_int",
    "Estrade.C82_date_partial",
    "Estrade.C82_instant_partial",
    "Estrade.C82_instant_false",
    "Estrade.C82_trades_partial",
    "Estrade.C82_report_partial",
    "Estrade.C82_strategies"
   ],
   "note": "every file, every content of the cells (quotes, commas, line breaks); references, status, direction, quantities, counts exactly, opening date to the second of the wall clock; texts of floats are those of an arbitrary function. The instant of the opening is not in the file (C82_instant_false: the repeated hour of a clock change)"
  },
  {
   "property": "C83",
   "status": "partial",
   "theorems": [
    "Estrade.C83_weeks_partial",
    "Estrade.C83_fixed_zones_partial",
    "Estrade.C83_trades_partial",
    "Estrade.C83_strategies_partial",
    "Estrade.C83_frames_partial",
    "Estrade.C83_callbacks_partial",
    "Estrade.C83_exceptions_partial",
    "Estrade.C83_trend_partial",
    "Estrade.C83_false",
    "Estrade.C83_years_false",
    "Estrade.C83_days_false"
   ],
   "note": "all programs whose frame sets count ticks, seconds, minutes, hours, days or weeks, all zones (the later run has the clock changes later), every epic gets its first tick before anything but registrations and ticks happens (those of epics with strategies after the other epics). False for frames of months and years (C83_false, C83_years_false), and for shifts that are no whole weeks (C83_days_false)"
  },
  {
   "property": "C84",
   "status": "partial",
   "theorems": [
    "Estrade.C84_mirror_partial",
    "Estrade.C84_trades_partial",
    "Estrade.C84_strategies_partial",
    "Estrade.C84_callbacks_partial",
    "Estrade.C84_exceptions_partial",
    "Estrade.C84_frames_partial",
    "Estrade.C84_indicators_partial",
    "Estrade.C84_candles_partial",
    "Estrade.C84_rsi_partial",
    "Estrade.C84_trend_partial",
    "Estrade.C84_false",
    "Estrade.C84_spread_false",
    "Estrade.C84_zero_false",
    "Estrade.C84_flat_false"
   ],
   "note": "exact arithmetic; c an even number of cents, spreads in whole cents, no quote 0 or c, programs without RSI (the RSI itself is covered by C84_rsi_partial); every epic gets its first tick before anything but registrations and ticks happens. False for an odd number of cents (C84_false), other spreads (C84_spread_false), quotes of 0 (C84_zero_false) and the RSI of a market that did not move (C84_flat_false)"
  },
  {
   "property": "C85",
   "status": "proved",
   "theorems": [
    "Estrade.C85_names",
    "Estrade.C85_trades",
    "Estrade.C85_strategies",
    "Estrade.C85_frames",
    "Estrade.C85_indicators",
    "Estrade.C85_exceptions",
    "Estrade.C85_trend",
    "Estrade.C85_same_name"
   ],
   "note": "third instance of Lemmas/Mapping, without restrictions on arithmetic, ticks or programs; the renaming must be injective (C85_same_name); references of trades and providers occur in reports only"
  },
  {
   "property": "C86",
   "status": "partial",
   "theorems": [
    "Estrade.C86_separate",
    "Estrade.C86_merged",
    "Estrade.C86_in_order_partial",
    "Estrade.C86_false",
    "Estrade.C86_market",
    "Estrade.C86_day_split"
   ],
   "note": "epics of one timezone; no influence between epics without sharing and the merged history are proved in full, the period of each tick when the merged ticks are in order. False otherwise (C86_false: each epic checks the order of its own ticks only)"
  },
  {
   "property": "C87",
   "status": "partial",
   "theorems": [
    "Estrade.C87_live_partial",
    "Estrade.C87_exceptions_partial",
    "Estrade.C87_one_sided_partial",
    "Estrade.C87_false",
    "Estrade.C87_zero_false"
   ],
   "note": "proved for programs that never open a trade against an open one of the same strategy and open positive quantities, in particular strategies of one direction each. False otherwise (C87_false: netting is only in the class for backtests; C87_zero_false)"
  },
  {
   "property": "C88",
   "status": "partial",
   "theorems": [
    "Estrade.C88_in_force",
    "Estrade.C88_market_open",
    "Estrade.C88_market_start",
    "Estrade.C88_callbacks",
    "Estrade.C88_frames",
    "Estrade.C88_revalued_partial",
    "Estrade.C88_empty_days",
    "Estrade.C88_false"
   ],
   "note": "schedules, market state, callbacks and frames: proved in full; revaluation of open trades as long as the provider is not replaced, false otherwise (C88_false). Assignments inside callbacks: C97"
  },
  {
   "property": "C89",
   "status": "partial",
   "theorems": [
    "Estrade.C89_assignment",
    "Estrade.C89_ticks",
    "Estrade.C89_market_open",
    "Estrade.C89_tick_in_frame",
    "Estrade.C89_terminates",
    "Estrade.C89_boundaries",
    "Estrade.C89_no_gap",
    "Estrade.C89_unaffected_partial",
    "Estrade.C89_without",
    "Estrade.C89_false"
   ],
   "note": "everything but contiguity: proved for zones of constant offset; frames overlap where the zone changes unless the boundaries are the same in both zones (C89_false, C89_unaffected_partial). One epic with one frame set, without strategies; C89_without relates it to whole worlds"
  },
  {
   "property": "C90",
   "status": "proved",
   "theorems": [
    "Estrade.C90_repeat",
    "Estrade.C90_program",
    "Estrade.C90_accepted",
    "Estrade.C90_trade",
    "Estrade.C90_open_trades",
    "Estrade.C90_tick_frames"
   ],
   "note": "for frame sets of time units of which none raises an exception (frames of a number of ticks count a repetition: C90_tick_frames)"
  },
  {
   "property": "C91",
   "status": "proved",
   "theorems": [
    "Estrade.C91_bars",
    "Estrade.C91_four_ticks",
    "Estrade.C91_seconds",
    "Estrade.C91_market_change",
    "Estrade.C91_trades"
   ],
   "note": "for programs in which no tick is refused and no frame set raises an exception; frame sets of seconds, open trades and minutes with a market change are outside the claim and do differ (C91_seconds, C91_trades, C91_market_change)"
  },
  {
   "property": "C92",
   "status": "proved",
   "theorems": [
    "Estrade.C92_in_session",
    "Estrade.C92_flat_overnight",
    "Estrade.C92_raising_false"
   ],
   "note": "no trades are opened for the strategy by the main program or by other strategies; the hypothesis on exceptions is needed (C92_raising_false)"
  },
  {
   "property": "C93",
   "status": "partial",
   "theorems": [
    "Estrade.C93_instance",
    "Estrade.C93_frames",
    "Estrade.C93_frames_without_exceptions",
    "Estrade.C93_no_frames",
    "Estrade.C93_class",
    "Estrade.C93_values_partial",
    "Estrade.C93_tick_values_partial",
    "Estrade.C93_values_false"
   ],
   "note": "the statement on values is proved for truthy objects and is false of the code for falsy ones (C93_values_false); user code is assumed to change nothing but its own value object"
  },
  {
   "property": "C94",
   "status": "partial",
   "theorems": [
    "Estrade.C94_stop_loss_partial",
    "Estrade.C94_stop_loss_spec",
    "Estrade.C94_shared_false",
    "Estrade.C94_raising_false"
   ],
   "note": "proved in exact arithmetic for quotes in cents, own providers and ticks without exceptions; false of the code with shared providers (C94_shared_false) or when another strategy raises (C94_raising_false)"
  },
  {
   "property": "C95",
   "status": "proved",
   "theorems": [
    "Estrade.C95_operation",
    "Estrade.C95_limit",
    "Estrade.C95_net",
    "Estrade.C95_count",
    "Estrade.C95_negative"
   ],
   "note": "for non-negative quantities, as stated; C95_negative is the witness that they are needed"
  },
  {
   "property": "C96",
   "status": "proved",
   "theorems": [
    "Estrade.C96_states",
    "Estrade.C96_items",
    "Estrade.C96_list",
    "Estrade.C96_used_up",
    "Estrade.C96_callback",
    "Estrade.C96_code",
    "Estrade.C96_for",
    "Estrade.C96_close_opened"
   ],
   "note": "as stated; Spec.Later (lists only grow, epics and dates stay, closed trades stay closed) holds between states of runs with non-negative quantities (C96_states, C96_code)"
  },
  {
   "property": "C97",
   "status": "proved",
   "theorems": [
    "Estrade.C97_flat",
    "Estrade.C97_market",
    "Estrade.C97_told",
    "Estrade.C97_registered",
    "Estrade.C97_quantities",
    "Estrade.C97_frames",
    "Estrade.C97_conservative",
    "Estrade.C97_provider_false"
   ],
   "note": "as stated; that the list is the one of the provider of the epic (C77) fails once the provider is replaced (C97_provider_false)"
  },
  {
   "property": "C98",
   "status": "proved",
   "theorems": [
    "Estrade.C98_conservative",
    "Estrade.C98_books",
    "Estrade.C98_totals",
    "Estrade.C98_registered",
    "Estrade.C98_quantities",
    "Estrade.C98_open_is_place",
    "Estrade.C98_placed",
    "Estrade.C98_exposure",
    "Estrade.C98_others",
    "Estrade.C98_custom",
    "Estrade.C98_request",
    "Estrade.C98_request_refused",
    "Estrade.C98_twice_false",
    "Estrade.C98_resubmit_false",
    "Estrade.C98_elsewhere_false"
   ],
   "note": "as stated; C98_books, C98_totals, C98_others and C98_custom hold for all programs, the others for programs that hand each trade over once; the last sentence is C98_twice_false, C98_resubmit_false and C98_elsewhere_false"
  },
  {
   "property": "C99",
   "status": "partial",
   "theorems": [
    "Estrade.C99_quotes",
    "Estrade.C99_setters",
    "Estrade.C99_shape",
    "Estrade.C99_objects",
    "Estrade.C99_conservative",
    "Estrade.C99_before",
    "Estrade.C99_extremes_partial",
    "Estrade.C99_order_false",
    "Estrade.C99_extremes_false",
    "Estrade.C99_closed_false"
   ],
   "note": "everything but the extremes as stated; the extremes are false for an object assigned after it was fed (C99_extremes_false: high_tick is chosen when a tick comes), proved if no object is assigned after it was fed (C99_extremes_partial). One frame set without indicators"
  },
  {
   "property": "C100",
   "status": "proved",
   "theorems": [
    "Estrade.C100_loop",
    "Estrade.C100_tick",
    "Estrade.C100_take_profit",
    "Estrade.C100_trailing",
    "Estrade.C100_last_false"
   ],
   "note": "as stated; the last sentence is C100_last_false (a later strategy revalues the trade)"
  },
  {
   "property": "C101",
   "status": "partial",
   "theorems": [
    "Estrade.C101_memory",
    "Estrade.C101_count",
    "Estrade.C101_same",
    "Estrade.C101_unit",
    "Estrade.C101_inside_partial",
    "Estrade.C101_ticks",
    "Estrade.C101_inside_false",
    "Estrade.C101_overlap_false"
   ],
   "note": "C101_inside_partial: the tick is in its frame if the assigned quantities are at most that of the constructor; false otherwise (C101_inside_false: the end still comes from the first quantity) and overlaps occur even then (C101_overlap_false); the parts on memory, unit and frames of ticks are proved as stated"
  },
  {
   "property": "C102",
   "status": "proved",
   "theorems": [
    "Estrade.C102_frames",
    "Estrade.C102_sma",
    "Estrade.C102_rsi",
    "Estrade.C102_candles",
    "Estrade.C102_pivots",
    "Estrade.C102_heikin",
    "Estrade.C102_heikin_decays",
    "Estrade.C102_heikin_endless"
   ],
   "note": "C102_heikin_endless: for every N two sets with N + 1 common frames whose latest Heikin-Ashi opens are 2 and 0"
  },
  {
   "property": "C103",
   "status": "partial",
   "theorems": [
    "Estrade.C103_ticks",
    "Estrade.C103_tick_in_frame",
    "Estrade.C103_before_end",
    "Estrade.C103_zone",
    "Estrade.C103_assignment",
    "Estrade.C103_local",
    "Estrade.C103_boundaries",
    "Estrade.C103_no_gap",
    "Estrade.C103_terminates",
    "Estrade.C103_one_zone",
    "Estrade.C103_unaffected_partial",
    "Estrade.C103_false",
    "Estrade.C103_any_order_false"
   ],
   "note": "everything but contiguity, which is false (C103_false: days in UTC followed by a day two hours to the west). That timezones do not matter is proved for timed frame sets with indicators of all hours and boundaries that are the same instants (C103_unaffected_partial). A tick out of order goes to a frame that begins after it (C103_any_order_false). Zones of constant offset; one tick object per call; without strategies and trades"
  },
  {
   "property": "C104",
   "status": "partial",
   "theorems": [
    "Estrade.C104_bounds",
    "Estrade.C104_fits",
    "Estrade.C104_refused",
    "Estrade.C104_step",
    "Estrade.C104_run",
    "Estrade.C104_years",
    "Estrade.C104_terminates_partial",
    "Estrade.C104_negative",
    "Estrade.C104_hang",
    "Estrade.C104_false",
    "Estrade.C104_conversion",
    "Estrade.C104_epic",
    "Estrade.C104_any_zone",
    "Estrade.C104_epic_any_zone",
    "Estrade.C104_world",
    "Estrade.C104_world_refused"
   ],
   "note": "proved but for the last sentence, which is false of negative quantities in timezones with clock changes (C104_false, C104_hang: hour frames of quantity -1 in Paris on the day when clocks go forward, where the code hangs); true for positive quantities in all timezones, and for negative ones in zones of constant offset (C104_terminates_partial). Exactly which ticks are refused for zones of constant offset; that none is in the years 2 to 9997 for all zones: frame sets, epics, and whole programs with strategies and trades (C104_any_zone, C104_epic_any_zone, C104_world)"
  },
  {
   "property": "C105",
   "status": "proved",
   "theorems": [
    "Estrade.C105_dict",
    "Estrade.C105_rebuild",
    "Estrade.C105_text_dict",
    "Estrade.C105_text",
    "Estrade.C105_sorted",
    "Estrade.C105_sorted_false",
    "Estrade.C105_utc",
    "Estrade.C105_utc_sorted",
    "Estrade.C105_zone_sorted_false",
    "Estrade.C105_epic"
   ],
   "note": "the exceptions stated (years before 1000, clocks going back) are proved with witnesses (C105_sorted_false, C105_zone_sorted_false). The text of floats is a parameter, assumed to tell floats apart and to have no spaces, commas and parentheses; years are not padded by strftime (glibc)"
  },
  {
   "property": "C106",
   "status": "partial",
   "theorems": [
    "Estrade.C106_extremes_partial",
    "Estrade.C106_between_partial",
    "Estrade.C106_brokers_partial",
    "Estrade.C106_requote",
    "Estrade.C106_result_partial",
    "Estrade.C106_idle_partial",
    "Estrade.C106_false"
   ],
   "note": "false as stated (C106_false): TradeProviderBacktests.open_trade reduces the quantity of a new trade after its extremes were recorded. Proved: the statement itself for systems without backtest providers (C106_brokers_partial, exact arithmetic); with them, the result is never below min_result, and above max_result only while nothing was closed and one result was recorded; revaluation (C106_requote) in full; results of strategies in exact arithmetic"
  },
  {
   "property": "C107",
   "status": "proved",
   "theorems": [
    "Estrade.C107_values",
    "Estrade.C107_levels",
    "Estrade.C107_pivot_false"
   ],
   "note": "the levels that disappear are proved with a witness (C107_pivot_false); Heikin-Ashi candles do repaint (C43_heikin_open_false). Ticks that raise are not among the continuations (C63)"
  },
  {
   "property": "C108",
   "status": "proved",
   "theorems": [
    "Estrade.C108_written",
    "Estrade.C108_kept",
    "Estrade.C108_raises",
    "Estrade.C108_no_summary",
    "Estrade.C108_retry",
    "Estrade.C108_agrees",
    "Estrade.C108_slash",
    "Estrade.C108_summary_only",
    "Estrade.C108_false"
   ],
   "note": "partial files of a write that fails in the middle (disk full) are not covered: a file is opened or not; paths are compared as they are spelled. That every strategy gets its files is false for references with a slash (C108_false)"
  },
  {
   "property": "C109",
   "status": "proved",
   "theorems": [
    "Estrade.C109_account",
    "Estrade.C109_flat",
    "Estrade.C109_near",
    "Estrade.C109_all",
    "Estrade.C109_direct_false",
    "Estrade.C109_account_in_range",
    "Estrade.C109_flat_in_range"
   ],
   "note": "exact arithmetic: equality for prices in whole cents, C109_near for all prices. Floats: equality for prices that are floats of cents and amounts within range (C109_account_in_range). False for programs that call trade.close themselves (C109_direct_false)"
  },
  {
   "property": "C110",
   "status": "proved",
   "theorems": [
    "Estrade.C110_no_free_lunch",
    "Estrade.C110_between",
    "Estrade.C110_epic_false",
    "Estrade.C110_placeholder_false",
    "Estrade.C110_between_in_range"
   ],
   "note": "sign in every float format, bounds in exact arithmetic and, for amounts within range, in floats. Comparing only ticks of the same epic is not enough, because ticks of other epics of the provider value its trades (C110_epic_false); trades opened before the first tick are bought at 0 (C110_placeholder_false)"
  },
  {
   "property": "C111",
   "status": "proved",
   "theorems": [
    "Estrade.C111_books",
    "Estrade.C111_epics",
    "Estrade.C111_twins"
   ],
   "note": "with two epics of the same reference the strategy does not list the first one (C111_twins)"
  },
  {
   "property": "C112",
   "status": "proved",
   "theorems": [
    "Estrade.C112_open_raises",
    "Estrade.C112_open_ignores",
    "Estrade.C112_open_effect",
    "Estrade.C112_strategy_open",
    "Estrade.C112_close_effect",
    "Estrade.C112_close_raises",
    "Estrade.C112_close_atomic",
    "Estrade.C112_close_opened",
    "Estrade.C112_close_opened_fits",
    "Estrade.C112_step",
    "Estrade.C112_program",
    "Estrade.C112_callbacks",
    "Estrade.C112_atomic_false"
   ],
   "note": "that a call which raises changes nothing is true of openings only: a failing close revalues its trade first (C112_atomic_false), which shows unless the trade is valued at the last tick already (C112_close_atomic). Quantities are ints or no numbers at all; ref and meta are not looked at"
  },
  {
   "property": "C113",
   "status": "proved",
   "theorems": [
    "Estrade.C113_company",
    "Estrade.C113_result",
    "Estrade.C113_twins",
    "Estrade.C113_name_false"
   ],
   "note": "the strategy sees the epics with their frames, its own activity and its own trades without statuses; strategy.epics and the provider lists are not part of it. Callbacks do not register objects or feed ticks. False when another strategy has the same reference (C113_name_false) or raises (C70_raising)"
  },
  {
   "property": "C114",
   "status": "proved",
   "theorems": [
    "Estrade.C114_markets",
    "Estrade.C114_alone",
    "Estrade.C114_result",
    "Estrade.C114_shared_false"
   ],
   "note": "as C113, for a set of epics with providers of their own, at the same positions and with the same provider indices in both systems; what the strategy sees is restricted to these epics. False if a provider is shared with a foreign epic (C114_shared_false)"
  },
  {
   "property": "C115",
   "status": "partial",
   "theorems": [
    "Estrade.C115_account",
    "Estrade.C115_own_partial",
    "Estrade.C115_blank",
    "Estrade.C115_shared_false",
    "Estrade.C115_alias_false"
   ],
   "note": "C115_account says for every program what is found. The claim holds for dictionaries given to one object and not written to by the program any more (C115_own_partial) and for empty ones (C115_blank); false of the code for dictionaries given to several objects (C115_shared_false) or written to later (C115_alias_false)"
  },
  {
   "property": "C116",
   "status": "partial",
   "theorems": [
    "Estrade.C116_units_partial",
    "Estrade.C116_conservative",
    "Estrade.C116_binary64_partial",
    "Estrade.C116_tenths_false",
    "Estrade.C116_false",
    "Estrade.C116_rest_false",
    "Estrade.C116_net_partial",
    "Estrade.C116_netted_partial",
    "Estrade.C116_net_value",
    "Estrade.C116_net_false",
    "Estrade.C116_drift",
    "Estrade.C116_tolerance_partial"
   ],
   "note": "holds for quantities that are multiples, up to 2^53 times, of a unit whose multiples are floats (C116_units_partial, C116_net_partial, C116_netted_partial; powers of 2 in binary64: C116_binary64_partial; whole quantities in every format, where the model is that of Trade.lean: C116_conservative). False of other floats in binary64 (C116_false, C116_tenths_false, C116_rest_false, C116_net_false), but true up to the 2^-50th part of the quantity opened for each close (C116_drift, C116_tolerance_partial). Netting closes at the present value in every format (C116_net_value). Single trades and the netting loop, without minima, maxima and the world around"
  },
  {
   "property": "C117",
   "status": "partial",
   "theorems": [
    "Estrade.C117_half_cent",
    "Estrade.C117_close",
    "Estrade.C117_adds_up_false",
    "Estrade.C117_false",
    "Estrade.C117_whole_partial",
    "Estrade.C117_half_cent_in_range"
   ],
   "note": "the bound of half a cent per close is C117_half_cent and C117_close with exact arithmetic; in floats it is half a cent per close and a tenth of a cent, for prices of cents and quantities within a range (C117_half_cent_in_range); without loss for whole quantities (C117_whole_partial); it cannot be improved, and the losses add up (C117_adds_up_false, C117_false)"
  },
  {
   "property": "C118",
   "status": "partial",
   "theorems": [
    "Estrade.C118_exact",
    "Estrade.C118_units_partial",
    "Estrade.C118_near",
    "Estrade.C118_cents_partial",
    "Estrade.C118_closed_result",
    "Estrade.C118_sma_model",
    "Estrade.C118_sma_near_partial",
    "Estrade.C118_tenths_false",
    "Estrade.C118_sma_false",
    "Estrade.C118_cancel_false",
    "Estrade.C118_false"
   ],
   "note": "equality for exact arithmetic (C118_exact) and for multiples of a unit (C118_units_partial); equality after rounding for amounts of cents within a range (C118_cents_partial); nearness in general (C118_near, C118_closed_result). False without rounding (C118_false, C118_tenths_false, C118_cancel_false) and of moving averages (C118_sma_false), which differ by at most one cent within a range (C118_sma_near_partial; C118_sma_model ties the averages to the model of the indicator). The functions that call sum are given with the new sum beside the models of the earlier versions, which the other properties are about"
  }
 ]
}