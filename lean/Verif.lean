import Verif.Num
import Verif.Py
import Verif.Time
import Verif.Tick
import Verif.Timeframe
import Verif.Frame
import Verif.Indicators
import Verif.Trade
import Verif.World
import Verif.Report
import Verif.Float64
import Verif.Lemmas.Round
import Verif.Lemmas.Calendar
import Verif.Lemmas.Grid
import Verif.Props.Numbers
import Verif.Props.Timeframes
import Verif.History
import Verif.Lemmas.FrameRep
import Verif.Lemmas.Timed
import Verif.Lemmas.TickSet
import Verif.Lemmas.Running
import Verif.Props.Frames
import Verif.Lemmas.TradeLemmas
import Verif.Props.Trades
import Verif.Lemmas.WorldSteps
import Verif.Lemmas.WorldLog
import Verif.Lemmas.Dicts
import Verif.Lemmas.EpicLog
import Verif.Lemmas.EpicFront
import Verif.Demo
import Verif.Props.Epics
import Verif.Lemmas.Registry
import Verif.Lemmas.Netting
import Verif.Lemmas.Opening
import Verif.Lemmas.PerTrade
import Verif.Props.Portfolio
import Verif.Props.Results
import Verif.Lemmas.Switches
import Verif.Props.Callbacks
import Verif.Lemmas.Blank
import Verif.Lemmas.Threads
import Verif.Lemmas.Covered
import Verif.Props.Threads
import Verif.Props.Reports
import Verif.Lemmas.IndRep
import Verif.Lemmas.Grouping
import Verif.Lemmas.Windows
import Verif.Lemmas.SameFrames
import Verif.Lemmas.Calm
import Verif.Lemmas.ValInv
import Verif.Lemmas.Samples
import Verif.Props.Averages
import Verif.Lemmas.Candles
import Verif.Lemmas.Quad
import Verif.Props.Indicators
import Verif.Lemmas.Range
import Verif.Props.Ranges
import Verif.Props.IndRanges
import Verif.Props.Quotes
import Verif.Lemmas.Fills
import Verif.Lemmas.Openings
import Verif.Props.Fills
import Verif.Lemmas.Marked
import Verif.Props.Marked
import Verif.Lemmas.Feed
import Verif.Lemmas.Lived
import Verif.Props.Exceptions
import Verif.Props.Aggregate
import Verif.Props.Determined
import Verif.Props.Bounds
import Verif.Props.AvgFloats
import Verif.Props.Monotone
import Verif.Props.Scaling
import Verif.Props.Shared
import Verif.Props.Special
import Verif.Props.Requests
import Verif.Reentrant
import Verif.Props.Reentrant
import Verif.Props.Books
import Verif.SharedInd
import Verif.Props.SharedInd
import Verif.SharedSet
import Verif.Props.SharedSet
import Verif.Props.Translation
import Verif.Props.Isolated
import Verif.Props.CsvText
import Verif.Props.Weeks
import Verif.Settings
import Verif.Rezone
import Verif.Lemmas.Redate
import Verif.Lemmas.Rezone
import Verif.Props.Rezone
import Verif.Lemmas.Repeat
import Verif.Lemmas.Recount
import Verif.Props.Repeat
import Verif.Lemmas.Bars
import Verif.Lemmas.Minutes
import Verif.Props.Bars
import Verif.Lemmas.Births
import Verif.Props.DayTrade
import Verif.Custom
import Verif.Lemmas.Custom
import Verif.Lemmas.CustomLift
import Verif.Lemmas.UserValues
import Verif.Props.Custom
import Verif.Props.StopLoss
import Verif.Props.Limits
import Verif.Props.Loops
import Verif.Props.Free
import Verif.Tickets
import Verif.Lemmas.Tickets
import Verif.Props.Tickets
import Verif.Objects
import Verif.Lemmas.Objects
import Verif.Props.Objects
import Verif.Props.ExitRules
import Verif.Props.Retune
import Verif.Props.Warmup
import Verif.Props.Markets
import Verif.Props.Bounded
import Verif.Props.BoundedZones
import Verif.TickText
import Verif.Props.TickText
import Verif.Requote
import Verif.Refused
import Verif.Props.Extremes
import Verif.Props.Refused
import Verif.Props.Statement
import Verif.Props.FreeLunch
import Verif.Props.Repaint
import Verif.Props.Settings
import Verif.Props.Live
import Verif.Props.Mirror
import Verif.Props.Names
import Verif.Props.Final
import Verif.Props.Interleave
import Verif.Props.Isolation
import Verif.Props.Announce
import Verif.Props.Links
import Verif.Props.Kwargs
import Verif.Props.Company
import Verif.Props.StatementRange
import Verif.Props.Meta
import Verif.Props.Lots
import Verif.Props.LotsDrift
import Verif.Props.LotsRange
import Verif.Props.Sum312
