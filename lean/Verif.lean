import Verif.Lemmas.Absent
import Verif.Lemmas.Backup
import Verif.Lemmas.Cache
import Verif.Lemmas.Chain
import Verif.Lemmas.ConfigFile
import Verif.Lemmas.ConfigFile2
import Verif.Lemmas.ConfigFile3
import Verif.Lemmas.Crc
import Verif.Lemmas.DarCp
import Verif.Lemmas.DarCp2
import Verif.Lemmas.Database
import Verif.Lemmas.DbAdd
import Verif.Lemmas.DbFin
import Verif.Lemmas.DbRestore
import Verif.Lemmas.DbTree
import Verif.Lemmas.Deci
import Verif.Lemmas.Destroyed
import Verif.Lemmas.Difference
import Verif.Lemmas.DifferenceTree
import Verif.Lemmas.Elastic
import Verif.Lemmas.Escape
import Verif.Lemmas.Escape2
import Verif.Lemmas.Escape3
import Verif.Lemmas.FileIo
import Verif.Lemmas.Flat
import Verif.Lemmas.Hook
import Verif.Lemmas.Infinint
import Verif.Lemmas.Infinint2
import Verif.Lemmas.Infinint3
import Verif.Lemmas.Infinint4
import Verif.Lemmas.Isolate
import Verif.Lemmas.IsolateBackup
import Verif.Lemmas.IsolateDrop
import Verif.Lemmas.IsolateSig
import Verif.Lemmas.Layers
import Verif.Lemmas.Layers2
import Verif.Lemmas.Layers3
import Verif.Lemmas.Limitint
import Verif.Lemmas.ListFile
import Verif.Lemmas.Mask
import Verif.Lemmas.Merge
import Verif.Lemmas.Merge10
import Verif.Lemmas.Merge11
import Verif.Lemmas.Merge12
import Verif.Lemmas.Merge13
import Verif.Lemmas.Merge2
import Verif.Lemmas.Merge3
import Verif.Lemmas.Merge4
import Verif.Lemmas.Merge5
import Verif.Lemmas.Merge6
import Verif.Lemmas.Merge7
import Verif.Lemmas.Merge8
import Verif.Lemmas.Merge9
import Verif.Lemmas.Parallel
import Verif.Lemmas.Parallel2
import Verif.Lemmas.Parallel3
import Verif.Lemmas.Parallel4
import Verif.Lemmas.ParallelRead
import Verif.Lemmas.ParallelSeek
import Verif.Lemmas.ParallelSeek2
import Verif.Lemmas.ParallelSeek3
import Verif.Lemmas.ParallelSeek4
import Verif.Lemmas.ParallelSeek5
import Verif.Lemmas.Path
import Verif.Lemmas.PipeIo
import Verif.Lemmas.ReadSource
import Verif.Lemmas.ReadSource2
import Verif.Lemmas.Reader
import Verif.Lemmas.RemoteRead
import Verif.Lemmas.RemoteReadFull
import Verif.Lemmas.RemoteReadLive
import Verif.Lemmas.Restore
import Verif.Lemmas.Restore2
import Verif.Lemmas.Restore3
import Verif.Lemmas.RestoreFrame
import Verif.Lemmas.RestoreNames
import Verif.Lemmas.RestorePath
import Verif.Lemmas.RestorePreserve
import Verif.Lemmas.RestoreTable
import Verif.Lemmas.RestoreWalk
import Verif.Lemmas.RestoreWalk2
import Verif.Lemmas.Sar
import Verif.Lemmas.Sar2
import Verif.Lemmas.Sar3
import Verif.Lemmas.SaveFile
import Verif.Lemmas.Selection
import Verif.Lemmas.SeqCut
import Verif.Lemmas.SeqDel
import Verif.Lemmas.SeqEnd
import Verif.Lemmas.SeqEntry
import Verif.Lemmas.SeqRead
import Verif.Lemmas.SeqSim
import Verif.Lemmas.SeqSim2
import Verif.Lemmas.SignedCheck
import Verif.Lemmas.SliceCreate
import Verif.Lemmas.Sparse
import Verif.Lemmas.Sparse2
import Verif.Lemmas.StreamComp
import Verif.Lemmas.TestConv
import Verif.Lemmas.TestIno
import Verif.Lemmas.TestRaise
import Verif.Lemmas.TestSeq
import Verif.Lemmas.TestWalk
import Verif.Lemmas.Tronconneuse
import Verif.Lemmas.XformHdr
import Verif.Lemmas.XformOld
import Verif.Lemmas.XformOut
import Verif.Lemmas.XformPrefix
import Verif.Lemmas.XformRead
import Verif.Lemmas.XformWrite
import Verif.Lemmas.XformWrite07
import Verif.Model.ArchiveVersion
import Verif.Model.Attributes
import Verif.Model.Backup
import Verif.Model.Basic
import Verif.Model.BlockComp
import Verif.Model.Cache
import Verif.Model.Cancel
import Verif.Model.Catalogue
import Verif.Model.ComprArg
import Verif.Model.ConfigFile
import Verif.Model.Crc
import Verif.Model.Criterium
import Verif.Model.DarCp
import Verif.Model.Database
import Verif.Model.Datetime
import Verif.Model.DbAdd
import Verif.Model.DbHeader
import Verif.Model.DbRestore
import Verif.Model.Deci
import Verif.Model.Destroyed
import Verif.Model.Difference
import Verif.Model.EaRestore
import Verif.Model.Elastic
import Verif.Model.EolArg
import Verif.Model.Escape
import Verif.Model.ExclRegex
import Verif.Model.ExitStatus
import Verif.Model.FileIo
import Verif.Model.Flat
import Verif.Model.FsaRestore
import Verif.Model.HashFile
import Verif.Model.Headers
import Verif.Model.Hook
import Verif.Model.Infinint
import Verif.Model.Isolate
import Verif.Model.Keys
import Verif.Model.Layers
import Verif.Model.Limitint
import Verif.Model.ListFile
import Verif.Model.Mask
import Verif.Model.MemFile
import Verif.Model.Merge
import Verif.Model.MountPoints
import Verif.Model.Parallel
import Verif.Model.ParallelRead
import Verif.Model.ParallelSeek
import Verif.Model.Path
import Verif.Model.PolicyText
import Verif.Model.Range
import Verif.Model.ReadSource
import Verif.Model.RemoteRead
import Verif.Model.Restore
import Verif.Model.Rsync
import Verif.Model.Sar
import Verif.Model.SaveFile
import Verif.Model.Selection
import Verif.Model.SeqRead
import Verif.Model.SigBlock
import Verif.Model.SignedCheck
import Verif.Model.SliceCreate
import Verif.Model.SliceNames
import Verif.Model.Sparse
import Verif.Model.StatConc
import Verif.Model.Storage
import Verif.Model.StreamComp
import Verif.Model.Terminateur
import Verif.Model.TestOp
import Verif.Model.Text
import Verif.Model.Tlv
import Verif.Model.ToolsText
import Verif.Model.Tronc
import Verif.Model.Tronconneuse
import Verif.Model.UserArgs
import Verif.Model.UserComment
import Verif.Model.Xform
import Verif.Model.Zapette
import Verif.Props.Absent
import Verif.Props.ArchiveVersion
import Verif.Props.Attributes
import Verif.Props.Backup
import Verif.Props.BackupExcluded
import Verif.Props.BlockCipher
import Verif.Props.BlockComp
import Verif.Props.Cache
import Verif.Props.Cancel
import Verif.Props.Catalogue
import Verif.Props.CatalogueFile
import Verif.Props.CatalogueSound
import Verif.Props.Chain
import Verif.Props.ChainEx
import Verif.Props.Checksum
import Verif.Props.ComprArg
import Verif.Props.ConfigFile
import Verif.Props.DarCp
import Verif.Props.Database
import Verif.Props.Dates
import Verif.Props.Datetime
import Verif.Props.DbAdd
import Verif.Props.DbAddEx
import Verif.Props.DbHeader
import Verif.Props.DbOrder
import Verif.Props.DbRestore
import Verif.Props.DbRestoreAll
import Verif.Props.DbRestoreCmd
import Verif.Props.DbRestoreEx
import Verif.Props.DbStorage
import Verif.Props.Decimal
import Verif.Props.DecrRestore
import Verif.Props.Decremental
import Verif.Props.Destroyed
import Verif.Props.Difference
import Verif.Props.DifferenceEx
import Verif.Props.EaRestore
import Verif.Props.Elastic
import Verif.Props.EolArg
import Verif.Props.ExclRegex
import Verif.Props.ExitStatus
import Verif.Props.FileIo
import Verif.Props.FsaRestore
import Verif.Props.HashFile
import Verif.Props.Headers
import Verif.Props.Hook
import Verif.Props.Integers
import Verif.Props.Isolate
import Verif.Props.IsolateUse
import Verif.Props.Keys
import Verif.Props.Layers
import Verif.Props.ListFile
import Verif.Props.Lookup
import Verif.Props.Marks
import Verif.Props.Masks
import Verif.Props.MemFile
import Verif.Props.Merge
import Verif.Props.MergeEx
import Verif.Props.MountPoints
import Verif.Props.OldDatabase
import Verif.Props.OldSlice
import Verif.Props.Parallel
import Verif.Props.ParallelRead
import Verif.Props.ParallelSeek
import Verif.Props.Paths
import Verif.Props.Policies
import Verif.Props.PolicyText
import Verif.Props.PolicyText2
import Verif.Props.Ranges
import Verif.Props.ReadSource
import Verif.Props.RemoteRead
import Verif.Props.Restore
import Verif.Props.RestoreOptions
import Verif.Props.Rsync
import Verif.Props.SaveFile
import Verif.Props.Selection
import Verif.Props.SeqReadExample
import Verif.Props.SeqReading
import Verif.Props.SigBlock
import Verif.Props.SignedReading
import Verif.Props.SliceCreate
import Verif.Props.SliceNames
import Verif.Props.Slices
import Verif.Props.Sparse
import Verif.Props.StatConc
import Verif.Props.Statistics
import Verif.Props.Storage
import Verif.Props.StreamComp
import Verif.Props.Terminateur
import Verif.Props.TestOp
import Verif.Props.ToolsText
import Verif.Props.Tronc
import Verif.Props.UserArgs
import Verif.Props.UserComment
import Verif.Props.Xform
import Verif.Props.Zapette
import Verif.Spec.Attributes
import Verif.Spec.Backup
import Verif.Spec.BlockCipher
import Verif.Spec.Catalogue
import Verif.Spec.Chain
import Verif.Spec.Checksum
import Verif.Spec.Codec
import Verif.Spec.ComprArg
import Verif.Spec.ConfigFile
import Verif.Spec.DarCp
import Verif.Spec.Database
import Verif.Spec.DatabaseTree
import Verif.Spec.DbAdd
import Verif.Spec.DbHeader
import Verif.Spec.DbRestore
import Verif.Spec.Decimal
import Verif.Spec.Destroyed
import Verif.Spec.Difference
import Verif.Spec.EaRestore
import Verif.Spec.EolArg
import Verif.Spec.ExitStatus
import Verif.Spec.FileIo
import Verif.Spec.FsaRestore
import Verif.Spec.Hook
import Verif.Spec.Integer
import Verif.Spec.Isolate
import Verif.Spec.IsolateRef
import Verif.Spec.Keys
import Verif.Spec.Layers
import Verif.Spec.ListFile
import Verif.Spec.Marks
import Verif.Spec.Merge
import Verif.Spec.MountPoints
import Verif.Spec.OldDatabase
import Verif.Spec.Parallel
import Verif.Spec.ParallelRead
import Verif.Spec.ParallelSeek
import Verif.Spec.Paths
import Verif.Spec.PolicyText
import Verif.Spec.Ranges
import Verif.Spec.ReadSource
import Verif.Spec.RemoteRead
import Verif.Spec.Restore
import Verif.Spec.RestoreOptions
import Verif.Spec.Rsync
import Verif.Spec.SaveFile
import Verif.Spec.Selection
import Verif.Spec.SeqRead
import Verif.Spec.SigBlock
import Verif.Spec.SignedCheck
import Verif.Spec.SliceCreate
import Verif.Spec.Slices
import Verif.Spec.Sparse
import Verif.Spec.Statistics
import Verif.Spec.StreamComp
import Verif.Spec.TestOp
import Verif.Spec.TestSeq
import Verif.Spec.ToolsText
import Verif.Spec.UserArgs
import Verif.Spec.Window
import Verif.Spec.Xform
