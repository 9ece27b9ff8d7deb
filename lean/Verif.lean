import Verif.Lemmas.AbList
import Verif.Lemmas.Abtxt
import Verif.Lemmas.Arith
import Verif.Lemmas.Ast
import Verif.Lemmas.Base64
import Verif.Lemmas.Bits
import Verif.Lemmas.Bus
import Verif.Lemmas.BusPorts
import Verif.Lemmas.Bytes
import Verif.Lemmas.CliData
import Verif.Lemmas.CliQuery
import Verif.Lemmas.Collect
import Verif.Lemmas.Env
import Verif.Lemmas.Eval
import Verif.Lemmas.Files
import Verif.Lemmas.GetLinks
import Verif.Lemmas.HsCmd
import Verif.Lemmas.Html
import Verif.Lemmas.LnsCmd
import Verif.Lemmas.LnsGet
import Verif.Lemmas.LnsVote
import Verif.Lemmas.Local
import Verif.Lemmas.Matcher
import Verif.Lemmas.MultiWatch
import Verif.Lemmas.NameEval
import Verif.Lemmas.Num
import Verif.Lemmas.Packet
import Verif.Lemmas.Packet2
import Verif.Lemmas.PktCmd
import Verif.Lemmas.PktPage
import Verif.Lemmas.Place
import Verif.Lemmas.Predicates
import Verif.Lemmas.Predicates2
import Verif.Lemmas.Predicates3
import Verif.Lemmas.Pull
import Verif.Lemmas.Query
import Verif.Lemmas.Query2
import Verif.Lemmas.Query3
import Verif.Lemmas.QueryText
import Verif.Lemmas.ReadAt
import Verif.Lemmas.ReadHash
import Verif.Lemmas.Rewrite
import Verif.Lemmas.Rooted
import Verif.Lemmas.Runtime
import Verif.Lemmas.Runtime2
import Verif.Lemmas.Runtime3
import Verif.Lemmas.Runtime4
import Verif.Lemmas.Runtime5
import Verif.Lemmas.Runtime6
import Verif.Lemmas.Scopes
import Verif.Lemmas.Setup
import Verif.Lemmas.Space
import Verif.Lemmas.Spot
import Verif.Lemmas.Stamp
import Verif.Lemmas.Status
import Verif.Lemmas.Template
import Verif.Lemmas.TestSet
import Verif.Lemmas.Tokenize
import Verif.Lemmas.Tokenize2
import Verif.Lemmas.Told
import Verif.Lemmas.Tree
import Verif.Lemmas.Tree2
import Verif.Lemmas.Tree3
import Verif.Lemmas.Tree4
import Verif.Lemmas.Tree5
import Verif.Lemmas.Tree6
import Verif.Lemmas.Tree7
import Verif.Lemmas.Tree8
import Verif.Lemmas.Tree9
import Verif.Lemmas.TreeKey
import Verif.Lemmas.Votes
import Verif.Model.AbList
import Verif.Model.Abtxt
import Verif.Model.Api
import Verif.Model.Arith
import Verif.Model.Ast
import Verif.Model.Base64
import Verif.Model.Bus
import Verif.Model.Bytes
import Verif.Model.CliData
import Verif.Model.CliQuery
import Verif.Model.Collect
import Verif.Model.DbCmd
import Verif.Model.Defaults
import Verif.Model.Env
import Verif.Model.Eval
import Verif.Model.EvalCmd
import Verif.Model.FfiArgs
import Verif.Model.FfiRead
import Verif.Model.Files
import Verif.Model.Fit
import Verif.Model.GetLinks
import Verif.Model.Handlers
import Verif.Model.Handshake
import Verif.Model.HsCmd
import Verif.Model.Identity
import Verif.Model.Keys
import Verif.Model.LnsCmd
import Verif.Model.Local
import Verif.Model.Matcher
import Verif.Model.MultiWatch
import Verif.Model.Name
import Verif.Model.NameEval
import Verif.Model.Num
import Verif.Model.Options
import Verif.Model.Packet
import Verif.Model.PartialHash
import Verif.Model.PktCmd
import Verif.Model.PktScope
import Verif.Model.Predicates
import Verif.Model.Pull
import Verif.Model.PyCall
import Verif.Model.PyPkt
import Verif.Model.PyWhile
import Verif.Model.Query
import Verif.Model.QueryText
import Verif.Model.ReadHash
import Verif.Model.Repr
import Verif.Model.Rewrite
import Verif.Model.RootedSpace
import Verif.Model.Runtime
import Verif.Model.Scopes
import Verif.Model.SpMatch
import Verif.Model.Space
import Verif.Model.Stamp
import Verif.Model.Status
import Verif.Model.StatusCmd
import Verif.Model.Stream
import Verif.Model.TestSet
import Verif.Model.TreeKey
import Verif.Model.View
import Verif.Model.Votes
import Verif.Model.WasmBus
import Verif.Model.Wrap
import Verif.Props.AbList
import Verif.Props.AbeText
import Verif.Props.Api
import Verif.Props.Arith
import Verif.Props.Base64
import Verif.Props.Bus
import Verif.Props.CliData
import Verif.Props.CliQuery
import Verif.Props.Collect
import Verif.Props.DbCmd
import Verif.Props.Defaults
import Verif.Props.Env
import Verif.Props.Eval
import Verif.Props.EvalCmd
import Verif.Props.FfiArgs
import Verif.Props.FfiRead
import Verif.Props.Files
import Verif.Props.FilesSet
import Verif.Props.Fit
import Verif.Props.GetLinks
import Verif.Props.Handlers
import Verif.Props.Handshake
import Verif.Props.HsCmd
import Verif.Props.Html
import Verif.Props.Identity
import Verif.Props.Keygen
import Verif.Props.Keys
import Verif.Props.LnsCmd
import Verif.Props.Local
import Verif.Props.Logic
import Verif.Props.Loose
import Verif.Props.Matcher
import Verif.Props.MultiWatch
import Verif.Props.Name
import Verif.Props.NameEval
import Verif.Props.Options
import Verif.Props.Packet
import Verif.Props.Packet2
import Verif.Props.PartialHash
import Verif.Props.Pipe
import Verif.Props.PktCmd
import Verif.Props.Predicates
import Verif.Props.Printed
import Verif.Props.Pull
import Verif.Props.Push
import Verif.Props.PyCall
import Verif.Props.PyPkt
import Verif.Props.PyPkt2
import Verif.Props.PyWhile
import Verif.Props.Query
import Verif.Props.QueryText
import Verif.Props.ReadHash
import Verif.Props.Reads
import Verif.Props.Rewrite
import Verif.Props.Runtime
import Verif.Props.Setup
import Verif.Props.SpMatch
import Verif.Props.Space
import Verif.Props.Stamp
import Verif.Props.Status
import Verif.Props.StatusCmd
import Verif.Props.StatusSet
import Verif.Props.Stream
import Verif.Props.Sugar
import Verif.Props.Template
import Verif.Props.TestSet
import Verif.Props.Told
import Verif.Props.TreeKey
import Verif.Props.TreeQuery
import Verif.Props.UsWords
import Verif.Props.Votes
import Verif.Props.WasmBus
import Verif.Props.Wrap
import Verif.Spec.AbList
import Verif.Spec.Abe
import Verif.Spec.Api
import Verif.Spec.Base64
import Verif.Spec.Bus
import Verif.Spec.CliData
import Verif.Spec.CliQuery
import Verif.Spec.Collect
import Verif.Spec.DbCmd
import Verif.Spec.Defaults
import Verif.Spec.Env
import Verif.Spec.Eval
import Verif.Spec.EvalCmd
import Verif.Spec.FfiArgs
import Verif.Spec.FfiRead
import Verif.Spec.Files
import Verif.Spec.GetLinks
import Verif.Spec.Handlers
import Verif.Spec.Handshake
import Verif.Spec.HsCmd
import Verif.Spec.Html
import Verif.Spec.Keys
import Verif.Spec.LnsCmd
import Verif.Spec.Local
import Verif.Spec.Loose
import Verif.Spec.Matcher
import Verif.Spec.MultiWatch
import Verif.Spec.Name
import Verif.Spec.NameEval
import Verif.Spec.Options
import Verif.Spec.Packet
import Verif.Spec.Pipe
import Verif.Spec.PktCmd
import Verif.Spec.Predicates
import Verif.Spec.Pull
import Verif.Spec.PyCall
import Verif.Spec.PyPkt
import Verif.Spec.Query
import Verif.Spec.QueryText
import Verif.Spec.ReadHash
import Verif.Spec.Reads
import Verif.Spec.Rewrite
import Verif.Spec.Runtime
import Verif.Spec.SpMatch
import Verif.Spec.Space
import Verif.Spec.Stamp
import Verif.Spec.Status
import Verif.Spec.StatusCmd
import Verif.Spec.Stream
import Verif.Spec.Template
import Verif.Spec.TestSet
import Verif.Spec.Told
import Verif.Spec.TreeKey
import Verif.Spec.UsWords
import Verif.Spec.Votes
import Verif.Spec.WasmBus
import Verif.Spec.Wrap
