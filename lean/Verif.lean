import Verif.Props.Utils
import Verif.Props.Component
import Verif.Props.Chunks
import Verif.Props.Fail
import Verif.Spec.Example
import Verif.Props.Arbitrary
import Verif.Props.Schedule
import Verif.Props.Reorder
import Verif.Props.Session
import Verif.Props.Restore
import Verif.Props.Distributor
import Verif.Props.Checkpoint
import Verif.Props.Resume
import Verif.Props.MixtureKey
import Verif.Props.Mixture
import Verif.Props.Dynamic
import Verif.Props.Tree
import Verif.Props.IndexStore
import Verif.Props.Intervals
import Verif.Props.Chunker
import Verif.Props.Select
import Verif.Props.Database
import Verif.Props.QueryCache
import Verif.Props.CacheUse
import Verif.Props.Window
import Verif.Props.Readers
import Verif.Props.SlowReaders
import Verif.Props.Tokenizing
import Verif.Props.Datasets
import Verif.Props.Network
import Verif.Props.Ado
import Verif.Props.AdoHistory
import Verif.Props.Parser
import Verif.Props.PropertyCalc
import Verif.Props.Server
import Verif.Props.Protocol
import Verif.Props.Remote
import Verif.Props.RemoteFile
import Verif.Props.Torch
import Verif.Model.QueryEval
import Verif.Model.WorkerShm
import Verif.Props.WorkerShm
import Verif.Model.HFDataset
import Verif.Props.HFDataset
import Verif.Model.Registration
import Verif.Props.Registration
import Verif.Props.MixtureIds
import Verif.Model.DatasetSearch
import Verif.Props.DatasetSearch
import Verif.Model.CheckpointRun
import Verif.Props.CheckpointRun
import Verif.Model.FileFind
import Verif.Props.FileFind
import Verif.Model.WebSamples
import Verif.Props.WebSamples
import Verif.Model.ParserCollection
import Verif.Props.ParserCollection
import Verif.Props.AdoFormula
import Verif.Props.ScalingFit
import Verif.Props.ChunkConfig
import Verif.Props.Connection
import Verif.Props.Reproducible
import Verif.Props.Endless
import Verif.Props.EndToEnd
import Verif.Props.ChunkerExact
import Verif.Props.EndToEndAny
import Verif.Props.TrainingAny
import Verif.Props.Training
import Verif.Props.MixtureLog
import Verif.Props.ScheduleRun
import Verif.Props.Jobs
import Verif.Props.Restarts
import Verif.Props.RestartsComplete
import Verif.Props.RestoreFiles
import Verif.Props.CacheHit
import Verif.Props.ReproducibleExact
import Verif.Props.InferOrder
import Verif.Props.ColumnTypes
import Verif.Props.Opening
import Verif.Props.Float64
import Verif.Props.FloatWindow
import Verif.Props.KeyText
import Verif.Props.Readable
import Verif.Props.TableLinks
import Verif.Props.TrainedRecords
import Verif.Props.TrainedCache
import Verif.Props.SampleBlind
import Verif.Props.TrainingRecords
import Verif.Props.RestartRecords
import Verif.Props.LogRestore
import Verif.Props.FloatDynamic
import Verif.Props.Feedback
import Verif.Props.FeedbackRestore
import Verif.Props.Float32Averages
import Verif.Props.DynamicQuery
import Verif.Props.FeedbackRestarts
import Verif.Props.JobRestore
