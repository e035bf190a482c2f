import Verif.Encoding.Props
import Verif.Storage.Props
import Verif.Store.PropsHistory
import Verif.Store.PropsSearch
import Verif.Store.PropsNamespaces
import Verif.Store.PropsMigrate
import Verif.Tokeniser.Props
import Verif.Document.Props
import Verif.Position.Props
import Verif.Types.Props
import Verif.Imports.Props
import Verif.Imports.PropsUse
import Verif.Query.Props
import Verif.Query.PropsAccess
import Verif.Rpc.PropsStream
import Verif.Rpc.PropsWriters
import Verif.Rpc.PropsOrder
import Verif.Rpc.PropsCalls
import Verif.Rpc.PropsDispatch
import Verif.Server.PropsLifecycle
import Verif.Server.PropsWorkspace
import Verif.Server.PropsWatchers
import Verif.Server.PropsWorkers
import Verif.Server.PropsDocs
import Verif.Symbols.PropsTree
import Verif.Symbols.PropsOutline
import Verif.Symbols.PropsLookup
import Verif.Symbols.PropsVars
import Verif.Symbols.PropsArgs
import Verif.Analyser.PropsOrder
import Verif.Analyser.Sample
import Verif.Analyser.Grow
import Verif.Analyser.FindAll
import Verif.Analyser.PropsFind
import Verif.Analyser.SampleFind
import Verif.Analyser.Sound
import Verif.Analyser.Rename
import Verif.Analyser.Geometry
import Verif.Analyser.PropsRename
import Verif.Analyser.PropsSound
import Verif.Analyser.PropsUses
import Verif.Infer.Model
import Verif.Infer.Spec
import Verif.Infer.Lemmas
import Verif.Infer.Inv
import Verif.Infer.Main
import Verif.Infer.All
import Verif.Infer.PropsTypes
import Verif.Server.Publish
import Verif.Server.PropsPublish
import Verif.Query.Refer
import Verif.Query.ReferSpec
import Verif.Query.PropsRefer
import Verif.Decl.Model
import Verif.Decl.Spec
import Verif.Decl.Lemmas
import Verif.Decl.Sample
import Verif.Decl.PropsModifiers
import Verif.Decl.PropsDocs
import Verif.Decl.PropsParams
import Verif.Decl.PropsClasses
import Verif.Decl.PropsUse
import Verif.Decl.PropsFindings
import Verif.Query.Hover
import Verif.Query.PropsHover
import Verif.Complete.Names
import Verif.Complete.PropsNames
import Verif.Query.Plain
import Verif.Query.Frame
import Verif.Complete.Members
import Verif.Complete.MembersSpec
import Verif.Complete.MembersLemmas
import Verif.Complete.PropsMembers
import Verif.Document.Word
import Verif.Analyser.PropsVariables
import Verif.References.Model
import Verif.References.Spec
import Verif.References.Props
import Verif.References.PropsFind
import Verif.References.PropsText
import Verif.References.PropsClassText
import Verif.Store.Concurrent
import Verif.Store.Interleave
import Verif.Store.PropsConcurrent
import Verif.Store.Overlap
import Verif.Store.PropsOverlap
import Verif.Complete.PropsInsert
import Verif.Server.Races
import Verif.Server.RacesInv
import Verif.Server.RacesValid
import Verif.Server.RacesSpec
import Verif.Server.RacesKept
import Verif.Server.RacesIndex
import Verif.Server.RacesLock
import Verif.Server.RacesDisk
import Verif.Server.PropsRaces
import Verif.Uri.Model
import Verif.Uri.Spec
import Verif.Uri.Lemmas
import Verif.Uri.PropsUri
import Verif.Show.Model
import Verif.Show.Spec
import Verif.Show.Lemmas
import Verif.Show.PropsHover
import Verif.Show.PropsSignature
import Verif.Show.PropsClasses
import Verif.Show.PropsMembers
import Verif.Marks.Errors
import Verif.Marks.PropsErrors
import Verif.Marks.Hints
import Verif.Marks.PropsHints
import Verif.Complete.Where
import Verif.Complete.WhereSpec
import Verif.Complete.PropsWhere
import Verif.Whole.Model
import Verif.Whole.Spec
import Verif.Whole.Lemmas
import Verif.Whole.World
import Verif.Whole.Demo
import Verif.Whole.Props
import Verif.Whole.Show
import Verif.Whole.PropsShow
import Verif.Whole.Marks
import Verif.Whole.PropsMarks
import Verif.Whole.Symbols
import Verif.Whole.PropsSymbols
import Verif.Store.Open
import Verif.Store.PropsOpen
import Verif.Whole.Signatures
import Verif.Whole.PropsSignatures
import Verif.Query.PropsEnds
import Verif.Complete.PropsEnds
import Verif.Whole.MembersSpec
import Verif.Whole.Members
import Verif.Whole.PropsMembers
import Verif.Show.PropsDefine
import Verif.Query.Own
import Verif.Whole.TypesSpec
import Verif.Whole.Types
import Verif.Whole.PropsTypes
import Verif.Whole.PropsShowAll
import Verif.Whole.Folder
import Verif.Whole.PropsFolder
import Verif.Decl.Globals
import Verif.Whole.PropsGlobals
import Verif.Whole.PropsAccept
import Verif.Whole.Details
import Verif.Whole.PropsDetails
import Verif.Whole.HoverMembers
import Verif.Whole.PropsHoverMembers
import Verif.Whole.PropsProperties
import Verif.Whole.HoverVariables
import Verif.Whole.PropsHoverVariables
import Verif.Analyser.Named
import Verif.Analyser.PropsNamed
import Verif.Whole.Text
import Verif.Whole.PropsText
import Verif.Decl.Uses
import Verif.Whole.PropsUses
import Verif.Whole.PropsCalls
import Verif.Decl.Properties
import Verif.Decl.PropsProperties
import Verif.Server.Watchers
import Verif.Whole.PropsTextTypes
import Verif.Whole.PropsTextStatic
import Verif.Query.Lineage
import Verif.Whole.PropsTextInherited
import Verif.Query.Bare
import Verif.Query.PropsLineage
import Verif.Whole.PropsTextBare
import Verif.Whole.PropsTextChain
import Verif.Whole.PropsTextDefinition
import Verif.Whole.PropsTextHover
import Verif.Whole.PropsTextSignatures
import Verif.Query.PropsOrder
import Verif.Whole.PropsTextOverride
import Verif.Whole.PropsTextOverrideCalls
