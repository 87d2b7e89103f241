import Verif.Props.CoreNumbers
import Verif.Props.CoreValues
import Verif.Props.Store
import Verif.Props.StoreSame
import Verif.Props.Balancers
import Verif.Props.LargestFirst
import Verif.Props.LargestFewest
import Verif.Props.RandomImprove
import Verif.Props.Thermostat
import Verif.Props.LinearEstimator
import Verif.Props.Fraos
import Verif.Props.FraosCrash
import Verif.Props.FraosHandles
import Verif.Props.FraosConcurrent
import Verif.Props.FraosLife
import Verif.Props.Ilm
import Verif.Props.IlmConcurrent
import Verif.Props.IlmRefused
import Verif.Props.IlmPower
import Verif.Props.Multiverse
import Verif.Props.Time
import Verif.Props.SystemTime
import Verif.Props.MultiverseSource
import Verif.Props.ForkHandling
import Verif.Props.CardanoSource
import Verif.Props.CardanoStop
import Verif.Props.Cardano
import Verif.Props.CoreKeys
import Verif.Props.NetworkFees
import Verif.Props.Multisig
import Verif.Props.Networks
import Verif.Props.Fetcher
import Verif.Selection.ThermostatChanges
import Verif.Selection.ThermostatSplit
import Verif.Props.ThermostatChanges
import Verif.Props.ThermostatSplit
import Verif.Selection.ThermostatComplete
import Verif.Props.ThermostatComplete
import Verif.Selection.RandomImproveComplete
import Verif.Props.RandomImproveComplete
import Verif.Props.RandomFew
import Verif.Props.MoreFunds
import Verif.Props.SmallerPayment
import Verif.Props.SmallerDraw
import Verif.Selection.ThermostatCount
import Verif.Selection.ThermostatSize
import Verif.Props.ThermostatKeep
import Verif.Props.ThermostatObject
import Verif.Props.ThermostatLedger
import Verif.Props.ThermostatOverpaid
import Verif.Props.Payment
import Verif.Sources.PowerLoss
import Verif.Props.PowerLoss
import Verif.Fraos.PowerCut
import Verif.Props.FraosPower
import Verif.Fraos.Resources
import Verif.Props.FraosResources
import Verif.Props.FraosReasons
import Verif.Props.FraosBeside
import Verif.Props.FraosTwice
import Verif.Props.FraosDamaged
import Verif.Props.MultiverseTwice
import Verif.Props.MultiverseDomains
import Verif.Props.MultiverseShared
import Verif.Sources.Tips
import Verif.Props.CardanoTips
import Verif.Selection.CmlEstimator
import Verif.Selection.ThermostatCml
import Verif.Selection.LedgerBuilder
import Verif.Props.CmlFees
import Verif.Json.Text
import Verif.Json.TextLemmas
import Verif.Json.Types
import Verif.Json.TypesLemmas
import Verif.Props.JsonDocs
import Verif.Json.Config
import Verif.Props.JsonConfig
import Verif.Props.JsonAccept
import Verif.Sources.Confirmed
import Verif.Sources.ConfirmedPlan
import Verif.Sources.ConfirmedInv
import Verif.Sources.ConfirmedLive
import Verif.Props.Confirmed
import Verif.Sources.Followed
import Verif.Sources.FollowedInv
import Verif.Sources.FollowedLive
import Verif.Sources.FollowedChain
import Verif.Props.Followed
import Verif.Selection.Wallet
import Verif.Props.Wallet
import Verif.Props.Settlement
import Verif.Cardano.Bech32
import Verif.Cardano.Bech32Lemmas
import Verif.Cardano.Address
import Verif.Props.Address
import Verif.Props.Carp
import Verif.Sources.BlockFetcher
import Verif.Props.BlockFetcher
import Verif.Props.FraosSubView
import Verif.Props.Boundary
import Verif.Core.Division
import Verif.Selection.ThermostatDiv
import Verif.Props.Division
import Verif.Conformance.Core
import Verif.Conformance.Sources
import Verif.Conformance.Cardano
import Verif.Conformance.Fraos
import Verif.Conformance.Ilm
import Verif.Conformance.Thermostat
import Verif.Conformance.Selection
import Verif.Conformance.Multiverse
import Verif.Selection.Alike
import Verif.Selection.ThermostatAlike
import Verif.Props.Reproducible
import Verif.Props.ReproducibleRandom
import Verif.Ilm.Again
import Verif.Props.IlmAgain
import Verif.Props.RandomOrders
import Verif.Multiverse.Refused
import Verif.Sources.Refused
import Verif.Sources.RefusedFork
import Verif.Props.Refused
import Verif.Props.MultiverseOrder
import Verif.Props.MultiverseBack
import Verif.Props.SourceKeeps
import Verif.Props.SourceAsks
