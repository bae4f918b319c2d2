# Generates /verif/properties.jsonl (plain text list kept here so that it is easy to edit).
import json
P=[]
def p(title, statement, quantifier, why, *anchors):
    P.append(dict(id="C%02d"%(len(P)+1), title=title, statement=statement, quantifier=quantifier, why_tests_cant=why, anchors=list(anchors)))

p("Tick constructor admits exactly the well-formed quotes",
  "Tick(datetime, bid, ask) succeeds exactly when the datetime carries a timezone, bid and ask are int/float, and (as floats) bid <= ask; the datetime check comes first, then ask, then bid, then the order check; the datetime check raises TimeException, the others TickException. A successfully built tick has bid <= ask and a spread >= 0.",
  "every datetime (with or without timezone) and every pair of int / finite float / non-numeric bid and ask",
  "an iff over an infinite input space; tests only sample accepted and rejected pairs",
  "estrade/tick.py: Tick.__init__, Tick.check_value, ask/bid setters, Tick.spread", "estrade/mixins/timed.py: TimedMixin.datetime")
p("Tick.value is a cent-rounded mid price",
  "Tick.value is a multiple of 0.01, lies between round(bid, 2) and round(ask, 2), is at most 0.0075 away from the true mid (bid + ask)/2, and lies between bid and ask themselves whenever both quotes have at most two decimals.",
  "every tick with bid <= ask",
  "numeric bound over all quotes; rounding ties are exactly what examples miss",
  "estrade/tick.py: Tick.value, Tick.spread")
p("Frame start and frame end bracket the datetime",
  "For every accepted timed unit and quantity, get_frame_start(dt) <= dt < get_frame_end(get_frame_start(dt)).",
  "every datetime (microsecond resolution, all calendar years), all seven timed units, every accepted positive quantity (for YEAR: not larger than the year of the datetime; larger ones raise ValueError, which is part of the claim)",
  "all instants, leap years, month lengths and year boundaries",
  "estrade/mixins/timeframe.py: TimeframeMixin.get_frame_start, get_frame_end, _get_timeframe_start_*")
p("Frame start is the greatest aligned instant, frame end the next aligned one",
  "get_frame_start(dt) is the latest instant not after dt that is aligned to the timeframe (e.g. minute divisible by the quantity and zero seconds; Monday midnight; first day of a month whose 0-based index is divisible by the quantity; 1 January of a year divisible by the quantity) and get_frame_end of an aligned instant is the earliest aligned instant strictly after it.",
  "every datetime, all seven timed units, every accepted positive quantity (for YEAR: not larger than the year)",
  "optimality over all instants",
  "estrade/mixins/timeframe.py: TimeframeMixin.get_frame_start, get_frame_end")
p("Timeframes partition the time line",
  "get_frame_start is idempotent and monotone, the end of a frame is itself a frame start, and two datetimes have the same frame start exactly when the later one is before the end of the earlier one's frame.",
  "every pair of datetimes, all timed units, every accepted positive quantity (for YEAR: not larger than the years involved), timezone whose clock changes skip no aligned instant",
  "a relation between all pairs of instants",
  "estrade/mixins/timeframe.py: TimeframeMixin.get_frame_start, get_frame_end")
p("Timeframe validation accepts exactly usable quantities",
  "Constructing a timeframe succeeds exactly for quantities that tile the parent unit (divisors of 60 for seconds/minutes, 12 for hours, 7 for days, 1 for weeks, 12 for months, any positive number of ticks or years); everything else is rejected.",
  "every unit and every integer quantity (including zero and negative ones)",
  "iff over all integers",
  "estrade/mixins/timeframe.py: TimeframeMixin.__init__, _check_unit_consistency")
p("Every tick lands in the frame of its period",
  "After a FrameSet with a timed unit accepts a tick, the current frame's [period_start, period_end) contains the tick's datetime and the current frame's last_tick is that tick.",
  "every history of ticks with non-decreasing datetimes, every timed unit and accepted quantity, every memory limit >= 1, any set of registered indicators",
  "all histories",
  "estrade/graph/frame_set.py: FrameSet.on_new_tick, is_frame_over_timed, _create_new_frame_timed")
p("Timed frames are contiguous",
  "In a timed FrameSet consecutive frames in memory never overlap and never leave a gap: each frame's period_start equals the previous frame's period_end, and its period_end is the timeframe end of its period_start.",
  "every history of ticks with non-decreasing datetimes (timezone whose clock changes skip no aligned instant of the history), every timed unit and accepted quantity",
  "all histories including arbitrarily long silent periods",
  "estrade/graph/frame_set.py: FrameSet._create_new_frame_timed, create_new_frame")
p("A timed FrameSet is the grouping of the tick history by period",
  "The frames in memory are exactly the last max_frames_in_memory periods of the consecutive periods from the one of the first tick to the one of the last tick; the frame of a period that received ticks has their first/last tick, their count, their earliest highest and earliest lowest tick; a period that received none has the last earlier tick as first, high, low and last tick and a count of one.",
  "every history of ticks with non-decreasing datetimes, every timed unit, quantity and memory limit >= 1",
  "refinement of an incremental algorithm to a declarative grouping for all histories",
  "estrade/graph/frame_set.py: FrameSet.on_new_tick, _create_new_frame_timed, create_new_frame, clean_old_frames, Frame.on_new_tick")
p("A TICK FrameSet groups ticks by fixed count",
  "A FrameSet with unit TICK and quantity n attached to an epic holds the last max_frames_in_memory blocks of n consecutive ticks of the epic's history (the last block possibly shorter), each with the first/last/high/low tick and count of its block, and it opens a new frame when the tick's date is after the date of the previous tick.",
  "every tick history, every n >= 1, every memory limit >= 1",
  "all histories",
  "estrade/graph/frame_set.py: FrameSet.is_frame_over_tick, _create_new_frame_tick", "estrade/epic.py: Epic.on_new_tick")
p("Frame memory is bounded and keeps the most recent frames",
  "After every tick the FrameSet keeps min(number of frames ever created, max_frames_in_memory) frames, and they are the most recently created ones in creation order.",
  "every history, every unit, every memory limit >= 1",
  "all histories and limits",
  "estrade/graph/frame_set.py: FrameSet.clean_old_frames, create_new_frame")
p("Frame links mirror the frame list and closed means superseded",
  "For frames in memory previous_frame/next_frame are exactly the neighbours in FrameSet.frames (None at the ends), only the current frame is not closed, frames dropped from memory keep no link to live frames, and a frame once closed stays closed.",
  "every history, unit and memory limit >= 1",
  "pointer-structure invariant over all histories",
  "estrade/graph/frame_set.py: Frame.closed, FrameSet.create_new_frame, clean_old_frames")
p("Gap filling terminates",
  "Feeding a tick to a timed FrameSet accepted by the constructor always terminates, creating exactly one flat frame for every elapsed period without ticks.",
  "every accepted unit/quantity and every pair of consecutive ticks, arbitrarily far apart",
  "termination cannot be tested",
  "estrade/graph/frame_set.py: FrameSet._create_new_frame_timed", "estrade/mixins/timeframe.py: _check_unit_consistency")
p("get_frame(offset) counts frames backwards",
  "Epic.get_frame(ref, k) returns the k-th most recent frame (0 = current) for every k >= 0 smaller than the number of frames in memory, None for larger k, and raises KeyError for an unknown frame set; get_indicator_value returns that frame's value for the indicator, or None.",
  "every epic state, every frame set reference, every offset >= 0",
  "all states and offsets",
  "estrade/epic.py: Epic.get_frame, get_indicator_value", "estrade/graph/frame_set.py: FrameSet.__getitem__")
p("Anterior ticks are rejected without effect",
  "Epic.on_new_tick raises EpicException exactly when the tick's local datetime is before the last accepted tick's, in which case epic, frame sets, trades and strategies are unchanged; hence the datetimes of accepted ticks never decrease.",
  "every epic history and every tick",
  "all histories",
  "estrade/epic.py: Epic.on_new_tick")
p("Timezone conversion does not reorder ticks",
  "Feeding ticks in chronological (UTC) order never raises, whatever the epic's timezone, and conversion preserves the instant of the tick.",
  "every timezone and every chronologically ordered tick sequence",
  "all timezones and sequences, DST transitions included",
  "estrade/epic.py: Epic.on_new_tick")
p("market_open is exactly the market calendar",
  "After a tick is accepted, Epic.market_open is True exactly when the tick's local time is between open_time and close_time inclusive, its weekday is a trade day and its date is not a holiday.",
  "every epic configuration and every accepted tick",
  "iff over all configurations",
  "estrade/epic.py: Epic.is_market_open, _in_market_hours, on_new_tick")
p("Strategy callbacks per tick",
  "For each accepted tick every active strategy, in registration order, receives exactly: on_market_close or on_market_open iff the market state changed with this tick (close iff it was open), then on_every_tick_market_open iff the market is now open, then on_every_tick; inactive strategies receive nothing. Callbacks run after frames and open trades have been updated.",
  "every epic state, tick, set of strategies and behaviour of the callbacks",
  "all states and arbitrary user callbacks",
  "estrade/epic.py: Epic._execute_strategies, on_new_tick")
p("Market open/close notifications alternate",
  "For a strategy that is active at every tick, the sequence of on_market_open / on_market_close notifications from an epic alternates strictly and starts with on_market_open; on_every_tick_market_open only occurs between an open and the following close.",
  "every tick history and behaviour of other strategies",
  "temporal property of all histories",
  "estrade/epic.py: Epic._execute_strategies, on_new_tick")
p("Stopped and paused strategies",
  "A stopped strategy is never called. A strategy paused until T gets no callback for ticks before T, and from the first tick not before T on it is called normally and its pause is cleared.",
  "every tick history, every T",
  "all histories",
  "estrade/strategy.py: BaseStrategy.is_active, _is_paused", "estrade/epic.py: Epic._execute_strategies")
p("Frame set and strategy references are unique per epic",
  "add_frame_set / add_strategy raise EpicException and change nothing iff the reference is already registered on the epic; otherwise the object is appended and later lookups by reference return it; references stay pairwise distinct for every sequence of additions.",
  "every sequence of additions",
  "all sequences",
  "estrade/epic.py: Epic.add_frame_set, add_strategy")
p("Trade quantity accounting",
  "For a trade with positive quantity and any sequence of closes with non-negative or omitted quantities: 0 <= opened_quantities, closed_quantities + opened_quantities = open_quantity, closes never exceed what was open, a request for too much is clamped, an omitted quantity closes all the rest, and closed is True exactly when nothing is left.",
  "every open quantity and every sequence of closes",
  "all sequences of partial closes",
  "estrade/trade.py: Trade.close, closed_quantities, opened_quantities, closed")
p("Trade result accounting",
  "At any time the trade's result is the sum over its closes of quantity times (cent-rounded) price move plus opened quantity times the current (cent-rounded) move, with the sign given by the direction; result_avg is that divided by open_quantity, rounded.",
  "every direction, price, sequence of updates and closes",
  "all histories",
  "estrade/trade.py: Trade.result, opened_result, closed_result, TradeClose.result")
p("A closed trade is frozen",
  "Once closed, a trade's result, closed quantity, current_close_value, min_result and max_result never change again under further ticks, updates and closes (with non-negative or omitted quantity), and the trade stays closed.",
  "every closed trade and every later sequence of operations",
  "all futures",
  "estrade/trade.py: Trade.update, close, close_from_tick")
p("min_result / max_result are the running extremes",
  "For a trade updated and closed through ticks, min_result <= result <= max_result at all times, and min_result and max_result are results the trade really had at some moment of its life.",
  "every sequence of ticks and partial closes",
  "all histories",
  "estrade/trade.py: Trade._update_min_max, update, close_from_tick", "estrade/trade_provider.py: TradeProviderBacktests.open_trade")
p("Trades open and close on the right side of the quote",
  "A BUY opens at the last tick's ask and is valued/closed at the bid, a SELL opens at the bid and is valued/closed at the ask; so right after opening, and after closing on the same tick, the result is minus quantity times the spread.",
  "every quote, direction and quantity",
  "all quotes (zero included)",
  "estrade/trade.py: Trade.__init__, open_from_tick, close_from_tick, update_from_tick")
p("Splitting a close does not change the result",
  "Closing q1 then q2 at the same price gives the same closed result as closing q1 + q2 at once, for any split of a quantity into parts.",
  "every price and every list of quantities",
  "all splits",
  "estrade/trade.py: Trade.close, closed_result, TradeClose.result")
p("BUY and SELL are mirror images",
  "A SELL trade opened and updated on mirrored quotes (bid and ask negated and exchanged) has at every step the same result as the BUY trade on the original quotes.",
  "every history of ticks and closes",
  "relational property of all histories",
  "estrade/trade.py: Trade.result, TradeClose.result_avg, open_from_tick, update_from_tick")
p("Ticks reprice exactly the epic's open trades",
  "When an epic accepts a tick, every trade of that epic that is still open is revalued at the tick's closing side, and closed trades and trades of other epics are untouched.",
  "every world state and tick",
  "all states with any number of epics, providers and trades",
  "estrade/epic.py: Epic._update_open_trades", "estrade/trade_provider.py: BaseTradeProvider.opened_trades")
p("Backtest netting conserves exposure",
  "With the backtest provider, opening a trade of quantity q against open trades of the opposite direction of the same strategy closes opposite quantity first (most recent trade first), opens only the remainder, and changes the strategy's net exposure (long minus short open quantity) by exactly plus or minus q.",
  "every set of open trades and every q > 0",
  "all portfolios",
  "estrade/trade_provider.py: TradeProviderBacktests.open_trade")
p("Netting leaves other strategies and same-direction trades alone",
  "Opening a trade with the backtest provider never changes any trade of the same direction or of another strategy, whatever else is open.",
  "every portfolio and new trade",
  "frame property over all portfolios",
  "estrade/trade_provider.py: TradeProviderBacktests.open_trade")
p("After a backtest open only one side of a strategy stays open (up to one partial remainder)",
  "After opening a trade with the backtest provider, at most one opposite trade of the same strategy is still open; if the new trade is itself registered none is; and the new trade is registered exactly when a positive quantity is left.",
  "every portfolio and new trade quantity > 0",
  "all portfolios",
  "estrade/trade_provider.py: TradeProviderBacktests.open_trade")
p("opened_trades lists open trades, latest first",
  "BaseTradeProvider.opened_trades contains exactly the provider's trades that are not closed, in reverse order of opening, without duplicates.",
  "every reachable provider state",
  "all histories",
  "estrade/trade_provider.py: BaseTradeProvider.opened_trades")
p("Trade registration is consistent",
  "Every opened trade is listed exactly once, in opening order, by its provider and (when it has one) exactly once by its strategy and by no other strategy; trades are never removed.",
  "every sequence of operations on any number of epics, providers and strategies",
  "invariant over all histories",
  "estrade/trade_provider.py: BaseTradeProvider.open_trade, TradeProviderBacktests.open_trade", "estrade/strategy.py: BaseStrategy.open_trade")
p("Provider request threads: outcome independent of schedule",
  "However the request threads are scheduled, quantities, prices and results of all trades are the same; when no thread is alive any more (is_alive is False) every trade and close sent to a backtest provider is CONFIRMED.",
  "every interleaving of thread executions with API calls",
  "all schedules",
  "estrade/trade_provider.py: BaseTradeProvider.open_trade, close_trade, is_alive, TradeProviderBacktests.open_trade_request, close_trade_request")
p("get_trades filters",
  "BaseStrategy.get_trades yields the strategy's trades latest first, exactly those whose epic is in the given list (if any), that are not closed (if open_only) and whose datetime is not before only_after (if given).",
  "every list of trades and every combination of filters",
  "all trade lists",
  "estrade/strategy.py: BaseStrategy.get_trades")
p("Strategy result",
  "BaseStrategy.result(trades) is the cent-rounded sum of the results of exactly the given trades (all trades of the strategy when the argument is omitted), independent of their order.",
  "every list of trades (the empty list included)",
  "all lists and orders",
  "estrade/strategy.py: BaseStrategy.result")
p("Profit factor",
  "BaseStrategy.profit_factor is never negative; without losing trade it is the sum of gains; otherwise it is gains divided by max(losses, 1), rounded to cents.",
  "every list of trade results",
  "all lists",
  "estrade/strategy.py: BaseStrategy.profit_factor")
p("close_opened_trades closes everything",
  "After BaseStrategy.close_opened_trades() every trade of the strategy is closed, each at its own epic's last tick, and no trade of another strategy is changed.",
  "every reachable state",
  "all portfolios",
  "estrade/strategy.py: BaseStrategy.close_opened_trades, get_trades, close_trade", "estrade/epic.py: Epic.close_trade")
p("Indicator values see exactly the eligible ticks of their frame",
  "An indicator's value on a frame holds the first, last, earliest highest and earliest lowest of the ticks delivered to that frame while the indicator was applicable (all of them, or only those received with the market open when market_open_only), and there is no value iff there was no such tick.",
  "every history of ticks and market states, every indicator registered before the frame was created",
  "all histories",
  "estrade/graph/base_indicator.py: BaseIndicatorValue.on_new_tick, BaseIndicator.build_value_from_frame", "estrade/graph/frame_set.py: Frame._upsert_indicators")
p("Indicator previous/next navigation",
  "value.previous is the indicator's value on the nearest earlier frame in memory that has one, None if there is none; value.next is the value on the next frame if any.",
  "every history and memory limit",
  "all histories",
  "estrade/graph/base_indicator.py: BaseIndicatorValue.previous, next")
p("Japanese candle geometry",
  "For every candle low <= open <= high and low <= last <= high; body, head and tail are >= 0 and add up to the height; color is GREEN/RED/BLACK according to last > / < / = open; body, head, tail and color are available for every candle.",
  "every tick history delivered to a candle",
  "all histories (zero prices included)",
  "estrade/graph/indicators/candle_set.py: BaseCandle, JapaneseCandle")
p("Closed candles are immutable",
  "Once a frame is closed, no later tick changes the open, high, low, last and close of its candle (Japanese and Heikin-Ashi).",
  "every history after the frame was closed",
  "all futures, including eviction of older frames from memory",
  "estrade/graph/indicators/candle_set.py: JapaneseCandle, HeikinAshiCandle", "estrade/graph/frame_set.py: FrameSet.clean_old_frames")
p("Heikin-Ashi candles",
  "For every Heikin-Ashi candle low <= open <= high and low <= last <= high, last lies between the lowest and highest tick value of the candle, the open of a candle with a predecessor is the cent-rounded mean of the predecessor's open and last, and the open of the first one is its first tick value.",
  "every history",
  "all chains of candles",
  "estrade/graph/indicators/candle_set.py: HeikinAshiCandle")
p("Simple moving average",
  "get_value(p) on the value of a frame is the cent-rounded mean of the last tick values of that frame and the p-1 preceding frames, and None iff fewer than p frames exist, for every 1 <= p <= max_periods; it does not depend on max_frames_in_memory.",
  "every history, every max_periods >= 1, every p",
  "all histories, eviction included",
  "estrade/graph/indicators/simple_moving_average.py: SimpleMovingAverageValue")
p("SMA keeps a bounded window",
  "A SimpleMovingAverage never keeps more than max_periods closes per frame and get_value(p) is None for every p > max_periods.",
  "every history and max_periods",
  "all histories",
  "estrade/graph/indicators/simple_moving_average.py: SimpleMovingAverageValue.__init__, get_value")
p("RSI range and extremes",
  "An RSI value, when present, is between 0 and 100; it is 100 when no change in the window is negative and 0 when there is a loss and no gain; it never raises.",
  "every history of ticks",
  "all histories",
  "estrade/graph/indicators/rsi.py: RSIValue._build_rsi, _build_sums")
p("RSI window",
  "With N = periods * unit_quantity, the RSI value of a frame is present exactly when at least N earlier frames existed and is 100 - 100/(1 + gains/losses) (rounded) of the last N frame-to-frame changes of last tick values, the current frame's included.",
  "every history, N >= 1, memory limit >= N",
  "all histories, eviction included",
  "estrade/graph/indicators/rsi.py: RSIValue, RSI.set_frame_set")
p("RSI registration is checked and atomic",
  "FrameSet.add_indicator(RSI(periods)) raises BaseIndicatorException exactly when periods * unit_quantity exceeds max_frames_in_memory, and then leaves the frame set unchanged.",
  "every frame set and periods",
  "iff and frame condition over all configurations",
  "estrade/graph/indicators/rsi.py: RSI.set_frame_set", "estrade/graph/frame_set.py: FrameSet.add_indicator")
p("Classic pivot levels",
  "On every frame with a predecessor value the pivot is the rounded (high + low + last)/3 of the predecessor and the levels are present and ordered support3 <= support2 <= support1 <= pivot <= resistance1 <= resistance2 <= resistance3; without a predecessor all of them are None.",
  "every history",
  "all histories (zero prices included)",
  "estrade/graph/indicators/pivot.py: PivotTypeClassic")
p("OLHC pivot",
  "The OLHC pivot is the rounded mean of predecessor high, low, last and the current first tick value, and lies between the smallest and largest of them.",
  "every history",
  "all histories",
  "estrade/graph/indicators/pivot.py: PivotTypeOLHC")
p("CSV report contents",
  "ReportingCSV.report writes one line per strategy with its reference, number of trades, result and profit factor and, if asked, one file per strategy with one line per trade, latest first; files that already exist are not damaged and no line is lost.",
  "every list of strategies and every prior content of the target folder",
  "all folder states and strategy lists",
  "estrade/reporting/csv.py: ReportingCSV.report, CSVWriter.dict_to_csv, CSVWriter.open_file")
p("Tick provider lookup",
  "get_epic_by_ref(r) returns the last epic with reference r in the list given to the constructor and None iff there is none.",
  "every list of epics and every reference",
  "all lists",
  "estrade/tick_provider.py: BaseTickProvider")
p("Automatic references",
  "An object created without (or with an empty) ref gets a five character reference; an explicit non-empty ref is kept; automatic references are distinct.",
  "every creation sequence and every outcome of the uuid generator",
  "all random outcomes",
  "estrade/mixins/ref.py: RefMixin.ref")
p("Round-half-even cent rounding",
  "round(x, 2) as used for every displayed value returns a multiple of 0.01 nearest to x (ties to even), is monotone, odd and idempotent.",
  "every value",
  "all rationals",
  "estrade/trade.py: Trade.opened_result_avg", "estrade/tick.py: Tick.spread, Tick.value")
p("Global result accounting of a strategy",
  "The strategy's result equals the cent-rounded realised part (all closes) plus unrealised part (open quantities) over its trades, and closing all open trades on the current ticks does not change it.",
  "every reachable state in which open trades carry their epic's latest quote",
  "all portfolios",
  "estrade/strategy.py: BaseStrategy.result, close_opened_trades", "estrade/trade.py: Trade.result")
p("Epic and frame set stay in step",
  "After any sequence of ticks and other operations on an epic, each of its frame sets is in the state obtained by feeding it, in order, the accepted ticks since it was added, with the market state of each tick; strategies, trades and threads cannot influence it.",
  "every operation sequence and strategy behaviour",
  "non-interference over all histories",
  "estrade/epic.py: Epic.on_new_tick, _update_frame_sets")
p("Fills come from quotes of the epic",
  "Without direct trade.close calls, every trade was opened at the ask (buy) or bid (sell) of a tick its epic had accepted before, at that tick's datetime, and every close of some quantity was filled at the opposite side of a tick the epic had accepted, at that tick's datetime; before the first tick of an epic the quote is the placeholder 0/0 of 1900-01-01. Successive openings on an epic use ticks in the order of acceptance.",
  "every reachable state, every strategy behaviour",
  "all interleavings of ticks, callbacks, threads and user operations",
  "estrade/epic.py: Epic.open_trade, Epic.last_tick", "estrade/trade_provider.py: TradeProviderBacktests.open_trade", "estrade/trade.py: Trade.open_from_tick, Trade.close_from_tick")
p("Trade chronology",
  "Without direct trade.close calls, for every trade opened on an accepted tick: the opening datetime, the datetimes of its closes in order, and the datetime of the last tick of its epic never decrease on the clock of the epic.",
  "every reachable state, every strategy behaviour",
  "all interleavings of ticks, callbacks, threads and user operations",
  "estrade/epic.py: Epic.on_new_tick", "estrade/trade.py: Trade.open_from_tick, Trade.close_from_tick")
p("Open trades carry the latest quote",
  "In a program that trades only through epics, strategies and providers (no direct trade.update or trade.close), every open trade always carries as current close value the closing side (bid for BUY, ask for SELL) of the latest tick of its epic, also inside callbacks; a strategy's result is what its closes banked plus what closing the rest on the latest ticks would bring.",
  "every program and strategy behaviour, after every command",
  "all interleavings; needs an invariant over ticks, netting, threads and callbacks",
  "estrade/epic.py: Epic.on_new_tick, _update_open_trades", "estrade/trade_provider.py: BaseTradeProvider.opened_trades", "estrade/trade.py: Trade.update_from_tick, Trade.__init__")
p("Profit of a market move",
  "An accepted tick during which the strategies do nothing changes the result of every strategy by (open long quantity on the epic) x (change of the bid) - (open short quantity on the epic) x (change of the ask), for prices in whole cents.",
  "every reachable portfolio and every tick",
  "all portfolios and quotes",
  "estrade/epic.py: Epic.on_new_tick", "estrade/strategy.py: BaseStrategy.result", "estrade/trade.py: Trade.update_from_tick, Trade.result")
p("Cost of opening",
  "With the backtest provider, opening a trade changes the result of the strategy by exactly minus the spread (in cents) times the quantity left after netting; the closes made by the netting do not change the result.",
  "every reachable portfolio, direction and quantity",
  "all portfolios",
  "estrade/trade_provider.py: TradeProviderBacktests.open_trade", "estrade/strategy.py: BaseStrategy.result, open_trade")
p("Exceptions leave the frames consistent",
  "If ticks raise (an indicator fails) and the program goes on, a frame set with a memory limit of at least one frame still holds the latest min(n, limit) of the n frames it created, linked as the list says, each summarising some of the delivered ticks in their order; periods of timed sets stay aligned and consecutive (zones without clock changes); get_frame counts from the most recent frame. A tick that falls in the current frame is recorded there even if it raises; one that should start a frame and raises is in no frame.",
  "every sequence of ticks and indicators, raising or not, and every run of a program",
  "all exceptions at all points; needs the state left behind by each of them",
  "estrade/graph/frame_set.py: Frame.on_new_tick, Frame._upsert_indicators, FrameSet.create_new_frame, _create_new_frame_timed, add_tick_to_last, on_new_tick", "estrade/epic.py: Epic._update_frame_sets, get_frame")
p("Memory limits below one frame",
  "With max_frames_in_memory below 1 a frame set never holds more than one frame, the last one created. Every tick that does not fall in the current frame raises; without indicators it is an IndexError, and the tick is nevertheless the first one of the new current frame unless at least one period without ticks lies before it, in which case it is lost; ticks that fall in the current frame are recorded and do not raise.",
  "every sequence of ticks, every limit below 1",
  "all histories",
  "estrade/graph/frame_set.py: FrameSet.clean_old_frames, create_new_frame, _create_new_frame_timed, on_new_tick")
p("Coarser frames aggregate finer ones",
  "If two timed frame sets are fed with the same ticks and every start of a period of the coarse one is a start of a period of the fine one, then a coarse frame whose period holds a tick is the aggregate of the fine frames of its period: first tick of the first, last tick of the last, highest high, lowest low, and its number of ticks is the sum of theirs.",
  "every history of ordered ticks, every pair of accepted units and quantities that nest, every memory limit that still covers the period",
  "all histories; relates two independently maintained structures",
  "estrade/graph/frame_set.py: FrameSet._create_new_frame_timed, FrameSet.on_new_tick, Frame.on_new_tick", "estrade/graph/frame_set.py: Frame.first_tick, Frame.last_tick, Frame.high_tick, Frame.low_tick")
p("Frames are determined by the ticks of their period",
  "A frame of a timed set that holds ticks of its own period depends on nothing but these ticks: two sets fed with histories that agree on a period, whatever they contain elsewhere, show the same first, last, high and low tick, number of ticks and period for it. The memory limit decides only how many frames are kept: with a smaller limit the set holds the last frames of the larger one, for timed and tick-counting sets alike; and sets of 60 seconds and 1 minute, 60 minutes and 1 hour, 7 days and 1 week, 12 months and 1 year hold the same frames. Ticks in order, no clock change that skips a frame boundary.",
  "every history of ordered ticks, every pair of memory limits, all periods",
  "relates two executions with different histories, limits or units",
  "estrade/graph/frame_set.py: FrameSet._create_new_frame_timed, FrameSet.clean_old_frames, FrameSet.on_new_tick, Frame.on_new_tick")
p("Bounds of the result of a trade",
  "Whatever updates, ticks and closes a trade goes through (quantities not negative), its result lies between its open quantity times the worst and the best move among the prices it has seen; a BUY at non-negative prices never loses more than it cost and a SELL never gains more than it was sold for. In exact arithmetic for all prices, and in floating point for prices in whole cents within the range of exactly represented cents.",
  "every trade and every sequence of operations and prices",
  "all sequences; needs an invariant over partial closes at different prices",
  "estrade/trade.py: Trade.result, Trade.close, Trade.update, Trade.close_from_tick, Trade.update_from_tick")
p("Closed trades are final",
  "In a run without negative quantities, a trade that is closed at some moment stays closed whatever ticks, callbacks, threads and operations follow, and its result, closed quantity, current value and extremes never change again. A strategy without open trades keeps its result and its profit factor until it gets a new trade; so close_opened_trades() fixes them.",
  "every reachable state and every continuation",
  "all continuations of all executions",
  "estrade/trade.py: Trade.close, Trade.update, Trade.closed, Trade.result", "estrade/strategy.py: BaseStrategy.result, BaseStrategy.profit_factor, BaseStrategy.close_opened_trades")
p("Ticks of different epics commute",
  "With strategies that do nothing and a provider of its own for each epic, the state after a sequence of ticks (epics, frames, indicators, market states, strategies, trades) depends only on the sequence of ticks of each epic, not on how the ticks of different epics are interleaved.",
  "every reachable state, every two interleavings of any tick sequences",
  "relates two executions; the number of interleavings is exponential",
  "estrade/epic.py: Epic.on_new_tick, Epic._update_open_trades, Epic._execute_strategies")
p("Strategies are isolated from each other",
  "What a strategy sees (epics and frames, its own trades with their results, whether it is active) depends only on the ticks, the registrations and its own actions: whatever other strategies do with their own trades in their callbacks without letting exceptions out, whatever trades the main program opens for others or for nobody, and whenever request threads run, it ends with the same trades and the same result, even if all trades are netted by one shared provider.",
  "every reachable state, all code of the strategy (decisions on everything it sees), all code of the others, all runs",
  "relates two executions with different programs; a non-interference property",
  "estrade/trade_provider.py: TradeProviderBacktests.open_trade", "estrade/epic.py: Epic.on_new_tick", "estrade/strategy.py: BaseStrategy.open_trade, BaseStrategy.close_opened_trades, BaseStrategy.result")
p("A moving average lies between the closes it averages",
  "Whenever SimpleMovingAverageValue.get_value(periods) returns a number for a positive number of periods, the number is at least the lowest and at most the highest of the closes it averages, floating point rounding and the rounding to cents included; get_value(0) raises ZeroDivisionError.",
  "all histories of ticks, all frames, all averages registered at any moment, all windows of at most 2^20 frames, closes of at most 2^20 in absolute value",
  "needs a bound on the accumulated error of float sums of any length, compared with the distance between two amounts in cents",
  "estrade/graph/indicators/simple_moving_average.py: SimpleMovingAverageValue.get_value, SimpleMovingAverageValue.extended_closes")
p("Better prices never give a worse result",
  "Take two trades of the same direction and quantity that go through the same updates, ticks and closes (same quantities, none negative). If the second is entered at a price at least as good and each price it sees is at least as good, its result, its best result and its worst result are at least as good, rounding to cents and floating point rounding included. In particular the same decisions on quotes with a wider spread never give a better result.",
  "every pair of trades, every sequence of operations, all prices, every float format",
  "relates two executions; rounding at each step could break monotonicity for rare values",
  "estrade/trade.py: Trade.result, Trade.close, Trade.update, Trade.close_from_tick, Trade.update_from_tick, Trade.open_from_tick, TradeClose.result")
p("Position size is only a scale",
  "Multiply every quantity that a program opens and closes by the same positive integer k, with the same ticks and decisions: frames, indicators, market states, notifications, registrations, exceptions, prices and the open or closed state of each trade are the same (netting included), and quantities, results, best and worst results of every trade and the result of every strategy are multiplied by k; profit factors are unchanged.",
  "every program (commands and callbacks), every k, every run",
  "relates two executions of arbitrary length through netting, partial closes and callbacks",
  "estrade/trade.py: Trade.close, Trade.result, Trade.update", "estrade/trade_provider.py: TradeProviderBacktests.open_trade", "estrade/strategy.py: BaseStrategy.result, BaseStrategy.profit_factor, BaseStrategy.close_opened_trades", "estrade/epic.py: Epic.on_new_tick")
p("Tick objects can be shared between epics",
  "A program may feed one Tick object to several epics, or several times: everything observable on the epics (acceptance of ticks, is_market_open(), market state, frames, indicators, trades, notifications) is as if every call had been given a Tick object of its own.",
  "every program, every pool of tick objects, every sharing pattern",
  "aliasing: on_new_tick converts tick.datetime in place and keeps the reference; needs reasoning about all aliasing patterns",
  "estrade/epic.py: Epic.on_new_tick, Epic.is_market_open")
p("Quotes that are not ordinary numbers",
  "Whatever floats are given, NaN and infinities included: an accepted Tick has bid <= ask and a value between its quotes; the high and low ticks of a frame bound the values of its ticks; the result of a trade is a number between its recorded min_result and max_result. On ordinary numbers that do not overflow, NaN, infinities and OverflowError never appear.",
  "every float (finite, infinite, NaN), every int, every sequence of ticks of a frame, every sequence of calls on a trade",
  "comparisons with NaN are all false, so every check and every running extreme needs a case analysis over histories",
  "estrade/tick.py: Tick.__init__, Tick.check_value, Tick.spread, Tick.value", "estrade/trade.py: Trade.__init__, Trade.update, Trade._update_min_max, Trade.result", "estrade/graph/frame_set.py: Frame.on_new_tick")
p("Every opening and every close is requested once, from the right provider, in order",
  "In every run a provider is asked to open exactly the trades registered with it, each once, and no other provider is asked; a trade of positive size is requested from the provider of its epic. Each close made through the epic, the strategy or netting is requested exactly once, from the provider of the epic the call is made on (strategy.close_opened_trades: the provider of each trade's own epic, latest trade first). Openings are requested in the order of the trades, an opening before its closes, closes of a trade in order. Requests are never withdrawn; calls that raise and all other calls request nothing.",
  "all programs and callbacks, all schedules of the request threads, any number of epics and providers of both kinds",
  "holds over unbounded runs that interleave netting, partial closes and running threads on several providers; a request sent twice or to another broker would only show with several providers",
  "estrade/trade_provider.py: BaseTradeProvider.open_trade, BaseTradeProvider.close_trade, TradeProviderBacktests.open_trade", "estrade/epic.py: Epic.open_trade, Epic.close_trade", "estrade/strategy.py: BaseStrategy.close_opened_trades")
p("Callbacks that feed ticks and register objects",
  "Callbacks may feed further ticks to any epic (ticks then nest) and register strategies, frame sets and indicators. Whatever they do, the epics, frames, trades and providers end up as after the flat program that issues the same commands one after the other with callbacks that do nothing, each command of a callback after the command that caused it. So ticks are accepted in chronological order, market_open is right, trades are registered once, requested once, never closed for more than their size and in chronological order, as without nesting. Registering a strategy on an epic from one of its own callbacks makes on_new_tick raise. Callbacks that only trade give the runs of the other claims.",
  "all callbacks (any code over the whole API, may depend on everything), all main programs, any nesting limit",
  "re-entrant calls read last_tick, market_open and the dict of strategies at every possible moment; the nesting and the interleavings are unbounded",
  "estrade/epic.py: Epic.on_new_tick, Epic._execute_strategies, Epic.add_strategy, Epic.add_frame_set")
p("The books of strategies and providers agree",
  "In every run the trades listed by the providers are, each exactly once, the trades listed by the strategies and those opened without a strategy. So every total (results, open quantities) over the providers is the total over the strategies plus that of the trades without a strategy; with exact arithmetic the values of strategy.result() add up likewise. If no quantity is negative, trades listed nowhere have size 0 and result 0, so nothing is missing from the total.",
  "all programs and callbacks, any number of strategies, epics and providers of both kinds",
  "an accounting identity over unbounded runs with netting, trades without strategy and several brokers",
  "estrade/trade_provider.py: BaseTradeProvider.open_trade, TradeProviderBacktests.open_trade", "estrade/strategy.py: BaseStrategy.result, BaseStrategy.trades", "estrade/epic.py: Epic.open_trade")
p("Indicator objects shared between frame sets",
  "Adding one indicator object to several frame sets is not observable: every frame set holds the frames, values and indicators it would hold with its own copy of each indicator, and every add_indicator and on_new_tick raises what it would raise with copies.",
  "all sequences of registrations and ticks on any number of frame sets and indicator objects of all kinds",
  "the aliasing shows only when an object is registered twice and frames start later, in some frame sets and not in others",
  "estrade/graph/frame_set.py: FrameSet.add_indicator", "estrade/graph/base_indicator.py: BaseIndicator.set_frame_set", "estrade/graph/indicators/rsi.py: RSI.set_frame_set, RSIValue.__init__")
p("Only price differences matter",
  "Adding the same amount to every quote of a program changes no decision and no result: same frames and extremes, same changes and RSI, averages, candles and pivots higher by that amount, same trades, quantities, results, extremes of results, profit factors, requests and notifications, same exceptions.",
  "all programs (commands and callbacks that decide on differences), all amounts, all worlds and lengths of run",
  "relates two whole runs; a test fixes one price level and never sees effects of absolute prices such as rounding parity or a quote of 0",
  "estrade/tick.py: Tick.value", "estrade/trade.py: Trade", "estrade/graph/frame_set.py: Frame.on_new_tick", "estrade/graph/indicators", "estrade/epic.py: Epic.on_new_tick")
p("Indicators of a frame set do not influence each other",
  "The values an indicator has in the frames of a frame set depend only on the ticks received and on the registrations of that indicator (its reference). Registering other indicators before, between or after, replacing them by others of the same reference, or not registering them at all leaves every value of it in every frame, and the frames themselves, unchanged.",
  "for every frame set, every sequence of add_indicator calls and ticks, every choice of the indicators kept, every frame",
  "the indicators share the dict of the frame, the loop over registered indicators and the walk to previous frames; a test has two or three indicators in one order",
  "estrade/graph/frame_set.py: Frame._upsert_indicators, FrameSet.add_indicator, FrameSet.create_new_frame", "estrade/graph/base_indicator.py: BaseIndicatorValue.previous, BaseIndicator.build_value_from_frame")
p("Report files can be read back",
  "The text of every CSV file written by a report, read by any reader of comma separated values, gives its header and its lines, each cell with exactly the characters printed, whatever references contain (commas, quotes, line breaks). From the lines of a trades file one recovers, per trade and in order, the references of trade, epic and strategy, status, direction, quantities and the instant of the opening to the second; from the strategies file, the reference, number of trades, result and profit factor of each strategy.",
  "all folders, strategies, trades and references (any characters), years 0 to 9999",
  "quoting depends on characters in user chosen references; tests compare cells of one benign file",
  "estrade/reporting/csv.py: CSVWriter.dict_to_csv, CSVWriter.open_file, ReportingCSV.report", "estrade/trade.py: Trade.asdict")
p("Which week it is does not matter",
  "Running a program any whole number of weeks later (ticks, closes, pauses, holidays and clock changes moved alike) changes nothing but dates: the market is open at the same ticks, the same callbacks are called in the same order, frames have the same ticks and values and periods moved by that much, trades have the same directions, quantities, prices, results, extremes and statuses, strategies are paused for the same stretch, and the same exceptions are raised.",
  "all programs (commands and callbacks that decide on anything but absolute dates), all numbers of weeks, all zones",
  "relates two whole runs through calendar arithmetic; a test fixes one date",
  "estrade/epic.py: Epic.on_new_tick, Epic.is_market_open", "estrade/mixins/timeframe.py: TimeframeMixin.get_frame_start, TimeframeMixin.get_frame_end", "estrade/graph/frame_set.py: FrameSet.on_new_tick", "estrade/strategy.py: BaseStrategy.is_active")
p("The mirrored market",
  "Mirroring the market (every price p becomes c - p, so bids become asks) and exchanging buying and selling changes no result: same market hours and callbacks, frames with the mirrored values (highs become lows), mirrored averages, pivots (supports become resistances) and candles (green becomes red, head becomes tail), RSI 100 minus the RSI; every trade has the opposite direction, mirrored prices and the same quantities, results, extremes of results and statuses; strategies have the same result and profit factor; the same exceptions are raised.",
  "all programs (commands and callbacks taking the mirrored decisions), all levels c, all lengths of run",
  "relates two whole runs; a test of one direction says nothing about asymmetries between buying and selling, highs and lows",
  "estrade/tick.py: Tick.value", "estrade/trade.py: Trade", "estrade/trade_provider.py: TradeProviderBacktests.open_trade", "estrade/graph/frame_set.py: Frame.on_new_tick", "estrade/graph/indicators")
p("References are only names",
  "References, chosen by the user or drawn at random when omitted, influence nothing but lookups: with other references for epics, strategies, frame sets and indicators, different ones staying different, the same trades are made at the same providers, the same callbacks are called, frames and indicator values found under the new references read the same, strategies have the same results, and the same exceptions are raised.",
  "all programs (commands and callbacks), all injective renamings, all worlds and lengths of run",
  "relates two whole runs under arbitrary references; default references are random, so no test can fix them",
  "estrade/mixins/ref.py: RefMixin.ref", "estrade/epic.py: Epic.add_frame_set, Epic.add_strategy", "estrade/graph/frame_set.py: FrameSet.add_indicator, Frame._upsert_indicators", "estrade/graph/base_indicator.py: BaseIndicatorValue.previous")
p("Frame set objects can be shared between epics",
  "A frame set added to one epic is influenced by the ticks of that epic only. A frame set added to several epics gets the ticks of all of them from then on, merged in order of arrival, none lost and none twice, and each tick lies in the period of the frame it is put in.",
  "all programs of additions, registrations and ticks; any number of epics and frame sets; all lengths of run",
  "the frame set keeps one reference to an epic and is fed by several; which one it asks shows only in particular interleavings",
  "estrade/epic.py: Epic.add_frame_set, Epic.on_new_tick", "estrade/graph/frame_set.py: FrameSet.on_new_tick, FrameSet.epic_market_open, FrameSet.is_frame_over_tick")
p("A backtest does what a broker would do",
  "With the provider class for backtests replaced by a broker class whose broker confirms every request at once, a program that does not look at the class does the same: same frames, callbacks, trades, closes, results, statuses, threads and exceptions.",
  "all programs (commands and callbacks), all worlds, all lengths of run and schedules of the threads",
  "relates two whole runs; tests use the class for backtests only",
  "estrade/trade_provider.py: BaseTradeProvider.open_trade, BaseTradeProvider.close_trade, TradeProviderBacktests.open_trade, TradeProviderBacktests.open_trade_request", "estrade/trade.py: Trade, TradeClose")
p("The settings of an epic may be changed while it runs",
  "open_time, close_time, trade_days, holidays and trade_provider may be assigned at any time. The market is open after a tick if and only if the schedule in force at that tick says so; an assignment shows at the next tick and not before, and callbacks follow. Frames and indicators not restricted to an open market are those of the program without the assignments. Open trades of the epic go on being revalued at every tick.",
  "all programs (commands, callbacks, assignments at any point), all lengths of run",
  "needs assignments between any two ticks of any history; tests construct epics once",
  "estrade/epic.py: Epic.__init__, Epic.is_market_open, Epic._in_market_hours, Epic._update_open_trades, Epic.on_new_tick")
p("The timezone of an epic may be changed while it runs",
  "An unknown timezone name raises EpicException and changes nothing. A known one takes effect at the next tick: ticks, market hours and new frames follow the clock of the new zone, ticks are still taken in order of their instants, every tick lies in the period of its frame, frames begin and end at boundaries of the clock of their zone, frames begin in order and no time between two frames is lost, and frames are contiguous. Frames whose boundaries are the same in both zones are those of the program without the assignment.",
  "all programs of ticks, assignments and registrations of indicators; all zones of constant offset; all units; all lengths of run",
  "needs assignments between any two ticks of any history; tests construct epics once",
  "estrade/epic.py: Epic.timezone, Epic.on_new_tick, Epic.is_market_open", "estrade/graph/frame_set.py: FrameSet.on_new_tick, FrameSet._create_new_frame_timed, FrameSet.is_frame_over_timed", "estrade/mixins/timeframe.py: TimeframeMixin.get_frame_start, TimeframeMixin.get_frame_end")
p("A repeated tick adds nothing but a count",
  "Where the feed repeats a tick (a tick of the same instant and quotes given again before any other), the repetition is accepted, and in epics whose frame sets are of time units it changes nothing but the number of ticks of the current frame: a program with repetitions and the one without leave every epic with the same last tick, market state, frames and indicator values whatever its strategies do, and a repetition leaves the value, the result and the highest and lowest result of every open trade as they are.",
  "all programs with any number of repetitions at any places; all units of time; all indicators; all behaviours of strategies; all number formats",
  "needs the comparison of two runs of every program; tests send each tick once",
  "estrade/epic.py: Epic.on_new_tick", "estrade/graph/frame_set.py: FrameSet.on_new_tick, Frame.on_new_tick, FrameSet.is_frame_over_timed", "estrade/graph/base_indicator.py: BaseIndicatorValue.on_new_tick", "estrade/graph/indicators/rsi.py: RSIValue.on_new_tick", "estrade/trade.py: Trade.update, Trade.update_from_tick")
p("The first, highest, lowest and last tick of each minute are enough",
  "In epics whose frame sets are of minutes, hours, days, weeks, months or years, a history may be replaced by another in which each run of ticks of one minute (with the market open throughout or closed throughout) is replaced by another run with the same first, highest, lowest and last tick, in particular by those four ticks alone: both programs leave every epic with the same last tick, market state, frames and indicator values, only the numbers of ticks differ. Frame sets of seconds, open trades and minutes in which the market opens or closes do see the ticks between.",
  "all programs; all sequences of ticks of each minute; all such units and quantities; all indicators; all behaviours of strategies; all number formats; all zones whose clock changes keep whole minutes",
  "needs the comparison of two runs for every history; tests compare with recorded values of one history",
  "estrade/epic.py: Epic.on_new_tick", "estrade/graph/frame_set.py: FrameSet.on_new_tick, Frame.on_new_tick, FrameSet._create_new_frame_timed", "estrade/graph/base_indicator.py: BaseIndicatorValue.on_new_tick", "estrade/graph/indicators/rsi.py: RSIValue.on_new_tick")
p("A strategy that closes at the market close holds nothing overnight",
  "If trades of a strategy are opened only in its own callbacks, for the epic of the callback, in on_market_open, in on_every_tick_market_open or after a look at market_open, then each of its trades was opened in the trading hours of its epic (by the clock of the epic) and the strategy is registered with that epic. If moreover its on_market_close begins with close_opened_trades(), nobody stops or pauses the strategy, no quantity is negative and no tick raises an exception, then between ticks it has no open trade on an epic whose market is closed. An exception of another strategy registered earlier may leave its trades open for the night.",
  "all programs (any user code obeying those rules, other strategies unrestricted); all calendars and zones; all interleavings of epics; all lengths of run",
  "a statement on every run of a class of user programs; a test executes one strategy on one day",
  "estrade/epic.py: Epic.on_new_tick, Epic._execute_strategies, Epic.is_market_open", "estrade/strategy.py: BaseStrategy.close_opened_trades, BaseStrategy.get_trades, BaseStrategy.is_active", "estrade/trade_provider.py: TradeProviderBacktests.open_trade_request, BaseTradeProvider.open_trade")
p("Indicators written by users",
  "Indicators and value classes may be written by users (subclasses of BaseIndicator and BaseIndicatorValue). Whatever the values do and whatever their on_new_tick raises, with registrations at any moment, the frames (bounds, links, numbers of ticks, first, highest, lowest, last tick) are those of a frame set without indicators given the same ticks, provided no constructor raises; as long as there is no exception at all they are so for any classes. An indicator whose constructor always raises keeps the frame set from ever having a frame. For a value class that looks only at the ticks it is given, the value on the frame of a period is the one built from the first tick of the period the indicator may see (market_open_only) and updated with all later ticks of the period, each once; on a frame that fills a gap, the one built from the last tick before. This holds for objects that are truthy: an object with __bool__ or __len__ that is falsy is thrown away and built again at the next tick.",
  "all user classes (constructor, on_new_tick, build_value_from_frame and truth value arbitrary functions of the frames, raising anything); all programs of ticks and registrations; all units and quantities; all number formats",
  "quantifies over all classes users may write; tests use the classes of the library",
  "estrade/graph/base_indicator.py: BaseIndicator.build_value_from_frame, BaseIndicatorValue.__init__, BaseIndicatorValue.on_new_tick", "estrade/graph/frame_set.py: Frame._upsert_indicators, Frame._create_new_indicator_value, Frame.on_new_tick, FrameSet.create_new_frame, FrameSet.on_new_tick, FrameSet.add_indicator")
p("A stop loss loses no more than the limit and one jump of the market",
  "If on_every_tick of a strategy begins with a loop that closes (with epic.close_trade) each of its open trades on the epic of the callback whose result is below minus a limit L, nobody stops or pauses the strategy, and trades are handled only through epics, strategies and providers with non-negative quantities, then each trade of the strategy on the epic, from its registration on, has a result of at least -(max(L, quantity x spread) + quantity x jump), where spread bounds the spreads and jump the moves of bid and ask from one tick of the epic to the next; between ticks the trades still open have at least -max(L, quantity x spread). This needs a provider of its own for each epic and ticks without exceptions: a tick of another epic on the same provider, or an exception of a strategy registered earlier, breaks it.",
  "all programs (any user code around the loop, other strategies unrestricted); all limits, quantities, spreads and jumps; all quotes in cents; all interleavings of epics; all lengths of run; exact arithmetic",
  "a bound over all paths of the market and all user code; a test runs one path",
  "estrade/epic.py: Epic.on_new_tick, Epic.close_trade, Epic.open_trade", "estrade/trade.py: Trade.update_from_tick, Trade.close_from_tick, Trade.result", "estrade/trade_provider.py: BaseTradeProvider.update_opened_trades, BaseTradeProvider.close_trade, TradeProviderBacktests.open_trade_request")
p("Position limits checked before opening are never exceeded",
  "Take any selection of epics and strategies. An operation with non-negative quantities adds to the open units of the selection at most the quantity asked for, and at most one open trade, and nothing unless it is an opening for the selection: closes, netting, threads, ticks and operations for others never add. Hence, if user code opens trades of the selection only where its open units and the new quantity are at most Q (it may look at the state, also between the operations of one callback, and rely on the limit), at most Q units of the selection are ever open and its net position lies between -Q and Q; if it opens only while fewer than N trades are open, at most N are ever open. Closing a negative quantity adds units and breaks the limit.",
  "all selections, limits, programs and user code obeying the rule (other code unrestricted but for the sign of quantities); all interleavings of ticks, operations, exceptions and threads; all number formats",
  "a statement on every run of a class of user programs; a test runs one strategy",
  "estrade/trade_provider.py: TradeProviderBacktests.open_trade_request, BaseTradeProvider.open_trade, BaseTradeProvider.close_trade", "estrade/trade.py: Trade.close, Trade.opened_quantities, Trade.closed_quantities", "estrade/epic.py: Epic.open_trade, Epic.on_new_tick", "estrade/strategy.py: BaseStrategy.open_trade, BaseStrategy.close_opened_trades")
p("A loop over get_trades ends, however its body trades",
  "get_trades is a generator over reversed(self.trades) that looks at the list when it is first asked. However operations, ticks and callbacks come between the questions, it gives only trades the strategy had at the first question, latest first, each at most once; each satisfies epics, open_only and only_after at the moment it is given; after its end it gives nothing more. When it ends, every trade that still satisfies the conditions has been given, unless a later one was opened before only_after. Hence a for loop over it has at most as many turns as the strategy had trades, even when the body opens trades, and open trades that were closed before their turn are skipped. Taken at once, the trades are those of list(get_trades(...)); result(generator) and profit_factor(generator) use it up: asked again they are 0, while an empty list means all trades. close_opened_trades is such a loop.",
  "all generators (conditions), all user code between the questions with non-negative quantities, all states of runs, any number of questions",
  "interleavings of lazy iteration and mutation of the list are unbounded; a test tries one",
  "estrade/strategy.py: BaseStrategy.get_trades, BaseStrategy.result, BaseStrategy.profit_factor, BaseStrategy.close_opened_trades, BaseStrategy.close_trade")
p("Callbacks may change the settings of an epic in the middle of its tick",
  "Let callbacks do all the main program may do: trade, feed ticks, register objects, and assign open_time, close_time, trade_days, holidays and trade_provider of any epic, also of the one whose tick is being handled. Then a run has the outcome (epics, frames, indicators, trades, registrations, accepted ticks) of the flat program that issues the same commands one after the other with callbacks that do nothing. The schedule of an epic is always the one last assigned by anybody, and market_open is what the schedule in force at the last accepted tick says of that tick. If callbacks feed no ticks, an assignment does not disturb the current tick: every strategy, before and after the assigning one, gets exactly the callbacks due under the settings in force when the tick came. A trade of positive size is in the list of exactly one provider, once, and of its own strategy only, once, even when the provider of its epic is replaced, and is never closed for more than it was opened. Frames and indicators that work at all hours do not depend on the settings.",
  "all callbacks (arbitrary programs over all commands and assignments), all programs, all depths of nesting, all states of runs; all number formats",
  "arbitrary user code inside callbacks; a test tries one order of assignments",
  "estrade/epic.py: Epic.__init__, Epic.on_new_tick, Epic._execute_strategies, Epic._update_open_trades, Epic.is_market_open, Epic._in_market_hours, Epic.open_trade, Epic.close_trade", "estrade/trade_provider.py: BaseTradeProvider.open_trade, TradeProviderBacktests.open_trade_request")
p("Trades built by the caller, handed to any provider",
  "Let user code, callbacks included, do all of C97 and also build Trade objects with any values and call open_trade and close_trade of any provider. However often it hands over which trades, the trades listed by all providers are, with multiplicity, those listed by all strategies and those without a strategy, so that every total over the providers is the total over the strategies plus that of the trades without one. open_trade of a provider changes of the trade at most its size, and of the other trades only open ones of the opposite direction and the same strategy which that provider lists; a provider that is not a backtest one changes none. If each trade is handed over once, when it is built, then: a trade of positive size is in the list of exactly one provider, once, and of its own strategy only, once; with non-negative quantities no trade is closed for more than it was opened; an order is netted against the open opposite trades of its strategy which that provider lists, latest first, each closed at the last exit quote of its own epic, and what is left keeps the values it was built with; epic.open_trade is the order at the quotes of the last tick sent to the epic's provider. A trade handed over twice is listed and counted twice, and after a partial close may end with less size than was closed; one handed to a provider that is not its epic's is not revalued by the ticks of its epic. close_trade of a provider changes no trade; its request, when it runs, sets the status of that close (CONFIRMED on a backtest provider) and nothing else of any trade.",
  "all user code (main program and callbacks) over all commands, all values of the trades built, all providers of both classes, all states of runs; all number formats",
  "the objects and the order of the calls are arbitrary; a test builds a few trades",
  "estrade/trade.py: Trade.__init__, Trade.close_from_epic", "estrade/trade_provider.py: BaseTradeProvider.open_trade, BaseTradeProvider.close_trade, BaseTradeProvider.opened_trades, TradeProviderBacktests.open_trade", "estrade/epic.py: Epic.open_trade, Epic.on_new_tick", "estrade/strategy.py: BaseStrategy.result")
p("Quotes assigned to a tick object, before or after it is fed",
  "tick.bid = v and tick.ask = v are accepted exactly for numbers, set that quote only and keep the rest (order of bid and ask included) unchecked; a refused value changes nothing. Whatever quotes a program assigns to its tick objects, before or after feeding them to a frame set: periods, numbers of ticks and frames, first and last tick object of every frame are those of the program without the assignments, the quotes of each object are the last numbers assigned to them, and the ticks of a frame are objects that were fed. If no object is assigned after it was fed, the frames are those of ticks made with the final quotes. Every frame shows its extremes: neither its first nor its last tick is higher than high_tick or lower than low_tick.",
  "all initial tick objects, all sequences of assignments (any values) and feedings (an object may be fed several times), all units, quantities and memory limits, all zones; all number formats",
  "aliasing: frames hold references, so any of infinitely many later assignments may change them; a test assigns once",
  "estrade/tick.py: Tick.__init__, Tick.bid, Tick.ask, Tick.check_value, Tick.value, Tick.spread", "estrade/graph/frame_set.py: Frame.__init__, Frame.on_new_tick, FrameSet.on_new_tick, FrameSet.create_new_frame, FrameSet.clean_old_frames")
p("Exit rules: a loop over get_trades that closes what a rule selects",
  "Let a rule be any condition on a trade and on the epics with their ticks, frames and indicators (stop loss, take profit, trailing stop, indicator). The loop 'for trade in strategy.get_trades(epics, open_only=True): if rule(trade): strategy.close_trade(trade)' raises nothing and closes exactly the open trades of the strategy on these epics for which the rule holds when the loop begins, completely, each at the bid or ask of the last tick of its epic; other trades, epics, strategies, the providers' lists and the notifications are as before, and no open trade selected satisfies the rule afterwards. Hence, if on_every_tick of a strategy that nobody stops or pauses is this loop and the strategy is the last one registered with the epic, then after every tick of the epic that raises nothing no open trade of the strategy on the epic satisfies the rule: results are below the take-profit, or within the trailing distance of max_result. For a strategy that is not the last one this fails.",
  "all rules, all states of all runs with all user code, all lists of epics, all quotes, all number formats",
  "the rule and the trades are arbitrary and the list changes while the loop goes over it; a test uses one rule on one list",
  "estrade/strategy.py: BaseStrategy.get_trades, BaseStrategy.close_trade, BaseStrategy.on_every_tick", "estrade/epic.py: Epic.on_new_tick, Epic.close_trade", "estrade/trade_provider.py: BaseTradeProvider.close_trade", "estrade/trade.py: Trade.close_from_tick, Trade.close, Trade.max_result, Trade.result")
p("Attributes of a frame set assigned while it runs",
  "unit, unit_quantity and max_frames_in_memory are public. Assignments of max_frames_in_memory (values of at least 1), whenever they come, change neither the exceptions nor the frames but only how many of the last frames are kept: a tick that makes no frame leaves their number as it is, one that makes n leaves min(number + n, limit in force); frames dropped do not come back. Assigning unit has no effect on frames. Assigning unit_quantity, with values the constructor accepts: every tick still goes to a frame whose period contains it, and the periods do not overlap. For frames of ticks, with all quantities between a and b, no frame has more than max(1, b) ticks and, within a day, no frame is left with fewer than a.",
  "all units and quantities, all sequences of ticks and assignments, all limits of at least 1, frame sets without indicators; all number formats",
  "the values are read at different moments (the length of a period only in the constructor, the start at every frame); a test assigns one value once",
  "estrade/mixins/timeframe.py: TimeframeMixin.__init__, TimeframeMixin.get_frame_start, TimeframeMixin.get_frame_end", "estrade/graph/frame_set.py: FrameSet.__init__, FrameSet.clean_old_frames, FrameSet.create_new_frame, FrameSet._create_new_frame_timed, FrameSet.is_frame_over_tick, FrameSet.is_frame_over_timed")
p("How far back the ticks start",
  "A frame set that gets its first tick when the latest frame of an older one (same unit and quantity, any memory limits and indicators) is complete, and the same ticks from then on, has the same frames counted from the latest. For indicators that are not restricted to an open market the values are the same once there are enough frames: at once for Japanese candles, p frames for an average over p, n + 1 for an RSI over n >= 2 changes, 2 for pivots, and for Heikin-Ashi candles of sets with the same memory limit as many as the memory holds; there is no number of frames that is enough for Heikin-Ashi candles whatever the memory limit, but the difference of their opens halves with every frame, up to two cents.",
  "all units and quantities, both memory limits, all earlier and common ticks, all indicators, all frames counted from the latest, all float formats (the last part: exact arithmetic)",
  "tests compare values with hand-computed ones on one history; that the past beyond a window has no influence is a statement about all pasts",
  "estrade/graph/frame_set.py: FrameSet.on_new_tick, FrameSet._create_new_frame_timed, FrameSet.__getitem__",
  "estrade/graph/indicators/simple_moving_average.py: SimpleMovingAverageValue.get_value", "estrade/graph/indicators/rsi.py: RSIValue",
  "estrade/graph/indicators/pivot.py: PivotTypeClassic, PivotTypeOLHC", "estrade/graph/indicators/candle_set.py: JapaneseCandle, HeikinAshiCandle.open")
p("A frame set shared by epics of different timezones",
  "Let epics, each with a timezone of its own that may be assigned at any time, hold the same FrameSet objects (add_frame_set). An epic compares a tick with its own last tick only, as instants, and takes it in its own timezone. Whatever the order in which ticks come to the epics: no call runs forever; every frame of a timed frame set begins at a boundary of the clock of a timezone that an epic has or had and ends at the next one; the frame a tick begins is in the timezone of the epic that got it; a frame begins after the beginning of the frame before it and not after its end; a tick that raises nothing is the last tick of the current frame of every timed frame set of its epic, which ends after it, and if it is not before any earlier tick it lies in the period of that frame. With one timezone the frames are those of C86. Where the boundaries of the timezones are the same instants, timezones do not matter. Consecutive frames are contiguous if ticks come in order.",
  "all tables of constant offsets below 24 hours, all numbers of epics and frame sets, all units and quantities, all sequences of calls (ticks, registrations, indicators, assignments of timezones), exceptions caught in between; all number formats",
  "timezones, registrations and interleavings of the ticks of several epics are arbitrary; a test has one epic per frame set",
  "estrade/epic.py: Epic.add_frame_set, Epic.timezone, Epic.on_new_tick, Epic._update_frame_sets", "estrade/graph/frame_set.py: FrameSet.on_new_tick, FrameSet._create_new_frame_timed, FrameSet.create_new_frame, FrameSet.is_frame_over_timed, FrameSet.is_frame_over_tick, FrameSet.add_tick_to_last",
  "estrade/mixins/timeframe.py: TimeframeMixin.get_frame_start, TimeframeMixin.get_frame_end")
p("The calendar ends",
  "Datetimes are those of the years 1 to 9999. Whatever the unit, the quantity and the timezone, the bounds of every frame ever made are such datetimes. In a timezone of constant offset, for the quantities of at least 1 that the constructor accepts: a tick whose frame fits in the calendar (its start, its end, and its end as an instant) has the effect on frames, indicators and exceptions that it would have if the calendar had no end; these are all ticks of the years 2 to 9998, except for frames of several years. Another tick has that effect too (it belongs to the current frame), or it raises OverflowError or ValueError and the frame set is as it was, without gap frames. A tick that cannot be converted to the timezone of the epic raises OverflowError and changes nothing. In any timezone, clock changes included, nothing meets the ends of the calendar while ticks are of the years 2 to 9997: a whole program, with its strategies and trades, goes as in a calendar without end. A tick that raises does so before trades are revalued and strategies told. With a negative quantity, every tick after the first frame, not before the earlier ones, raises at the end of a loop back to year 1. No tick makes the library run forever.",
  "all units, quantities, timezones, indicators, sequences of ticks and indicators, exceptions caught in between; all number formats",
  "tests use dates of a few years; that nothing between year 2 and year 9998 meets the ends of the calendar, and that what meets them leaves no trace, is about all histories",
  "estrade/mixins/timeframe.py: TimeframeMixin.get_frame_start, TimeframeMixin.get_frame_end", "estrade/graph/frame_set.py: FrameSet.on_new_tick, FrameSet._create_new_frame_timed, FrameSet.create_new_frame",
  "estrade/epic.py: Epic.on_new_tick, Epic._update_frame_sets")
p("The text and the dictionary of a tick",
  "tick.asdict() gives datetime, bid, ask, spread and value under these keys; Tick(...) of its datetime, bid and ask is the same tick exactly if bid <= ask, and otherwise raises TickException. asdict(datetime_to_str=True) differs in the datetime only, from which no tick can be made (TimeException). str(tick) is made of these five values, and two ticks have the same text exactly if their wall clocks show the same second and their quotes are the same, whatever their timezones. For years of four digits the datetimes of texts sort as the seconds of the wall clocks do (not before the year 1000, and not as the instants do when clocks go back); datetime_utc shows the instant whatever the timezone, is not changed by the conversion to the timezone of an epic, and sorts as the instants do. str(epic) tells its reference and its timezone.",
  "every tick and pair of ticks, every timezone; every text of floats that tells them apart and has no spaces, commas and parentheses",
  "all pairs of ticks: that a text tells ticks apart and sorts as time does cannot be seen on samples",
  "estrade/tick.py: Tick.asdict, Tick.__str__, Tick.__init__", "estrade/mixins/timed.py: TimedMixin.datetime_utc", "estrade/epic.py: Epic.__str__")
p("Extremes and revaluation of trades in a running system",
  "In every state of every program that closes trades through epics, strategies and providers and gives no negative quantities, with bid <= ask in accepted ticks, the result of every trade is between its min_result and its max_result. trade.update_from_epic() on all trades of a strategy, at any time of any program, raises nothing and changes nothing but current close values and extremes of these trades: every open one then has the closing side of the last tick of its epic and a result between its extremes, closed ones are as they were, and the result of the strategy is what its closes banked plus what closing the rest on the last ticks would bring, even where providers are shared by epics, frame sets raise or quotes are 0. Where open trades follow the quotes by themselves (C60), it changes no value and no result.",
  "all programs, callbacks, providers, epics, strategies and trades; partial statements about results in exact arithmetic",
  "extremes are recorded by some calls and results are changed by others: that no order of calls separates them (one does) is about all programs",
  "estrade/trade.py: Trade.update_from_epic, Trade.update_from_tick, Trade.update, Trade._update_min_max, Trade.open_from_epic", "estrade/trade_provider.py: TradeProviderBacktests.open_trade",
  "estrade/strategy.py: BaseStrategy.result")
p("No repainting: later ticks do not change what indicators showed",
  "Whatever ticks come and whatever indicators are registered afterwards: for a frame that is not the current one, the value object of every indicator keeps its ticks and its RSI, and get_value(p) of an average gives for every p what it gave, error or None included, even after the frame was dropped from memory. Pivot, supports and resistances of any frame, the current one included, are from the first tick of the value on always the same while the frame of the previous value is in memory, and None all seven from the moment it is dropped; they never become other numbers. (So the levels of the oldest frame in memory, which is closed, disappear.)",
  "all units, quantities, timezones, memory limits of at least 1, indicators, histories and continuations; all number formats",
  "a test looks at a frame at one or two moments; the statement is about every moment of every continuation",
  "estrade/graph/indicators/simple_moving_average.py: SimpleMovingAverageValue.get_value, SimpleMovingAverageValue.extended_closes", "estrade/graph/indicators/rsi.py: RSIValue._update_rsi, RSIValue.on_new_tick",
  "estrade/graph/indicators/pivot.py: PivotTypeClassic.pivot, PivotTypeClassic.support1, PivotTypeClassic.support2, PivotTypeClassic.support3, PivotTypeClassic.resistance1, PivotTypeClassic.resistance2, PivotTypeClassic.resistance3, PivotTypeOLHC.pivot",
  "estrade/graph/base_indicator.py: BaseIndicatorValue.previous", "estrade/graph/frame_set.py: FrameSet.clean_old_frames")
p("Reports that cannot write a file",
 "ReportingCSV.report(strategies) writes the trades file of each strategy in the order of the list (unless trade_details=False), each file only if there is none of that name, and the strategies file last. When the operating system refuses one of them (or the target folder), that exception leaves report(): the files before it are complete, nothing after it is written, in particular no strategies file, and no existing file is ever changed. A report that failed can be repeated in the same second once the cause is removed; the folder is then what it would have been without the failure. A reference with a slash makes the report raise unless the directory '{time}_{reference up to its last slash}' exists; without trade details references do not matter.",
 "every folder, every list of strategies, every set of refused files",
 "tests write two or three strategies with plain names into a writable folder",
 "estrade/reporting/csv.py: CSVWriter.open_file, CSVWriter.dict_to_csv, ReportingCSV.report")

p("The result follows from what the providers were asked to do",
 "The result of a strategy is the money of its account: what the openings and closes requested from the providers for its trades brought in (selling brings in price times quantity, buying costs it) plus what the units still held would bring in at their last price; nothing is counted twice or left out, netting included. Without open units it is the money of the requests alone. The results of all trades add up to the account of all listed trades. With prices between cents result and account differ by at most half a cent for each opened unit. trade.close() called by the user is in the result but not in the account.",
 "every program that closes trades through epics, strategies and providers, any number of providers of any kind, any callbacks",
 "tests compare the result of one trade with a number; nothing compares the requests a provider received with the result the strategy reports",
 "estrade/trade.py: Trade.result, TradeClose.result", "estrade/strategy.py: BaseStrategy.result", "estrade/trade_provider.py: BaseTradeProvider.open_trade, BaseTradeProvider.close_trade, TradeProviderBacktests.open_trade")
p("No free lunch",
 "If none of the bids of the ticks accepted by the epics of a provider is above any of their asks, no strategy that trades through the API can have a positive result, whatever it does and when; more generally the result lies between the worst and the best gain of one unit (bid of some tick minus ask of some tick, rounded to cents) times the number of units opened.",
 "every program and every callback, every sequence of ticks, in every float format for the sign, in exact arithmetic for the bounds; trades opened before the first tick of their epic excepted",
 "a profit out of nothing needs a particular order of ticks, openings, closes and netting; tests try a few orders",
 "estrade/trade.py: Trade.open_from_tick, Trade.update_from_tick, Trade.close_from_tick, Trade.result", "estrade/strategy.py: BaseStrategy.result", "estrade/epic.py: Epic.on_new_tick, Epic._update_open_trades, Epic.open_trade, Epic.close_trade", "estrade/trade_provider.py: BaseTradeProvider.opened_trades")

p("The epics of a strategy",
 "strategy.epics, documented as the epics that call the strategy, and epic.strategies agree: after any program epic.strategies lists the strategies registered by add_strategy in that order, and strategy.epics holds under each reference the epic registered last under it. If the epics of the strategy have different references, strategy.epics is exactly the set of epics whose strategies contain it, and every epic that ever called it is among them. With two epics of the same reference only the last one is listed, and the other one still calls the strategy.",
 "every program and every callback, exceptions included",
 "the two dictionaries are written in one method and read in others; a test registers one strategy on one epic",
 "estrade/epic.py: Epic.add_strategy, Epic._execute_strategies", "estrade/strategy.py: BaseStrategy.__init__")

p("Keyword arguments of openings and closes",
 "An opening fails exactly when a name is given that no parameter has, when direction or quantity are missing, when the direction is none or the quantity is not a number, and then nothing has changed; it raises KeyError for a missing direction, TradeException for one that is none (unless self, epic or tick are among the names), and TypeError otherwise. Otherwise it opens a trade of the given direction, quantity, strategy and status at the quotes of the epic; prices and datetimes given by the caller are ignored. strategy.open_trade refuses a strategy given by the caller. A close with fitting arguments closes the quantity; one that does not fit raises TypeError and closes nothing, but may have revalued the trade at the last tick of its epic. close_opened_trades with arguments that do not fit raises at the open trade opened last, and not at all without open trades. Every call, failing or not, changes the world as nothing or as one ordinary operation does, and so do callbacks made of such calls.",
 "every reachable state, every combination of arguments, every callback",
 "the names pass through four functions by **kwargs; tests pass the arguments that work",
 "estrade/epic.py: Epic.open_trade, Epic.close_trade", "estrade/strategy.py: BaseStrategy.open_trade, BaseStrategy.close_trade, BaseStrategy.close_opened_trades", "estrade/trade.py: Trade.__init__, Trade.open_from_tick, Trade.open_from_epic, Trade.close, Trade.close_from_tick, Trade.close_from_epic, TradeClose.__init__")

p("A strategy does the same in any company",
 "What a strategy does and obtains does not depend on the other strategies of the system: their number, their references, the epics they are registered with, when and in which order, what they trade, pause and close, and whether they share a provider that nets trades; nor on its own position and reference. In two systems with the same epics and kinds of providers, fed with the same ticks, frame sets and indicators, the strategy sees the same epics, frames and values, has the same trades with the same closes, results, minima and maxima, the same pauses, the same result and profit factor, and ticks raise the same exceptions. Two strategies of one system that run the same code and are registered alike fare alike: being called first is no advantage. This needs a reference that no other strategy has and others that let no exception out.",
 "every pair of systems, every code of the strategy and of the others, every program, request threads included",
 "tests run one strategy, or two that do nothing; influences between strategies show only in certain interleavings of trades",
 "estrade/epic.py: Epic.add_strategy, Epic._execute_strategies, Epic._update_open_trades, Epic.open_trade, Epic.close_trade", "estrade/strategy.py: BaseStrategy.open_trade, BaseStrategy.close_trade, BaseStrategy.close_opened_trades, BaseStrategy.is_active, BaseStrategy.result", "estrade/trade_provider.py: TradeProviderBacktests.open_trade, BaseTradeProvider.opened_trades")

p("Markets a strategy does not deal in do not matter to it",
 "A strategy registered with some epics only, which opens and closes on them and looks at them, fares the same whatever else the system holds: in two systems that have these epics in common, with providers that no other epic uses, it sees the same frames, values, trades, results, minima, maxima and pauses, and ticks of its epics raise the same exceptions, although the other epics, their number, their ticks before, between and after its own, their frame sets, indicators, providers and strategies differ, and although other strategies trade on its epics too. In particular it does the same when its epics are alone in the system. If an epic shares its provider with a foreign one the claim is false: a tick of the foreign epic revalues the trades of the strategy at a price of another market.",
 "every pair of systems, every set of epics, every code of the strategy and of the others, every program",
 "tests hold one epic; influences across epics show only with several epics, providers and interleaved ticks",
 "estrade/epic.py: Epic.on_new_tick, Epic._update_open_trades, Epic._execute_strategies, Epic.add_strategy, Epic.open_trade, Epic.close_trade", "estrade/strategy.py: BaseStrategy.open_trade, BaseStrategy.close_trade, BaseStrategy.close_opened_trades, BaseStrategy.result", "estrade/trade_provider.py: BaseTradeProvider.opened_trades, TradeProviderBacktests.open_trade")

p("The meta dictionary of a transaction",
 "What is found in the meta dictionary of a tick, a trade or a close is what was last put there through that object, or else what was in the dictionary given to its constructor; in particular the details a provider writes for one transaction, as documented, stay those of that transaction. (The code keeps the dictionary object itself unless it is empty: close_opened_trades(meta=...) with a dictionary that is not empty gives the same one to all closes, so that each transaction overwrites the details of the others; an empty dictionary is replaced by a new one, so that what the program writes to it later is lost.)",
 "every program that makes dictionaries and objects and writes to them, in any order",
 "a test opens one trade with one dictionary; sharing shows only with several objects and later writes, and depends on whether the dictionary was empty",
 "estrade/mixins/meta.py: MetaMixin.__init__", "estrade/trade.py: Trade.__init__, TradeClose.__init__, Trade.close", "estrade/tick.py: Tick.__init__", "estrade/strategy.py: BaseStrategy.close_opened_trades", "estrade/trade_provider.py: BaseTradeProvider.open_trade_request, BaseTradeProvider.close_trade_request")

p("Fractional quantities add up",
 "Quantities may be floats. What is open of a trade is what was opened without what was closed, a trade is closed when nothing remains, close() without a quantity closes the rest, and a new trade met by open ones of the opposite direction is opened with what exceeds their open quantities. (True of multiples of a unit such as 1, 0.5 or 0.25, false of others: a trade of 0.8 of which 0.1 are closed eight times stays open with 1.1e-16; close() can leave a quantity above or below 0; and a sale of 0.8 against eight purchases of 0.1 opens a trade of 1.4e-16.)",
 "every quantity, every sequence of updates and closes",
 "tests use whole quantities; the errors of sums of floats depend on the numbers",
 "estrade/trade.py: Trade.close, Trade.closed_quantities, Trade.opened_quantities, Trade.closed", "estrade/trade_provider.py: TradeProviderBacktests.open_trade")

p("Results of fractional quantities",
 "The result of a trade is the sum over its parts of quantity times average gain, up to half a cent for each close, and a close at the price the trade is valued at changes its result by at most half a cent; by nothing if the quantities closed are whole. (The result of a close is rounded to cents after the multiplication, that of the open part is not: n closes of 0.5 with a gain of one cent per unit gain nothing, so that the loss grows without bound with the number of closes.)",
 "every trade, every sequence of closes, every quantity",
 "tests use whole quantities, for which the rounding does nothing",
 "estrade/trade.py: Trade.opened_result, Trade.closed_result, Trade.result, TradeClose.result, TradeClose.result_avg")

p("The versions of Python",
 "Sums come out the same in every version of Python the project admits, although sum of floats is compensated since 3.12: exactly for whole quantities, halves, quarters and so on, and after rounding to cents for amounts of cents; in general both sums are close to the true one, and so the results of trades in the two versions to each other. (False without rounding: a trade of 0.8 closed by eight closes of 0.1 is closed since 3.12 and open before; and false of values computed from sums: the simple moving average of the closes 0.07, 0.24, 0.08, 0.19 is 0.15 before 3.12 and 0.14 since.)",
 "every list of floats",
 "a test runs in one version; the differences are in the last digit and show only where it decides a comparison or a rounding",
 "estrade/trade.py: Trade.closed_quantities, Trade.closed_result, Trade.closed_result_avg", "estrade/graph/indicators/simple_moving_average.py: SimpleMovingAverageValue.get_value")

open("/verif/properties.jsonl","w").write("".join(json.dumps(x)+"\n" for x in P))
print(len(P))
