import Verif.Props.CodecNeg
import Verif.Props.OMapProps
import Verif.Props.NumProps
import Verif.Props.TextProps
import Verif.Props.MiscProps
import Verif.Props.NameProps
import Verif.Props.LayoutProps
import Verif.Props.FieldProps
import Verif.Props.RuntimeProps
import Verif.Props.DeclProps
import Verif.Props.BridgeProps
import Verif.Props.EmbedProps
import Verif.Props.CalcProps
import Verif.Props.CProps
import Verif.Props.PyProps
import Verif.Props.ExprProps
import Verif.Expr.Kotlin
import Verif.Expr.KtProofs
import Verif.Expr.KtMain
import Verif.Props.KtExprProps
import Verif.Props.MethodProps
import Verif.Props.KtProps
import Verif.Props.JsProps
import Verif.Props.CSizeProps
import Verif.Props.JavaProps
import Verif.Props.CsProps
import Verif.Props.GenProps
import Verif.Props.ScopeProps
import Verif.Props.FileProps
import Verif.Gen.Imports
import Verif.Props.ImportProps
import Verif.Codec.TgtTrunc
import Verif.Codec.TruncLeaf
import Verif.Codec.KtTrunc
import Verif.Props.StreamProps
import Verif.Front.Lex
import Verif.Front.ReProofs
import Verif.Front.TokSpec
import Verif.Front.RuleProofs
import Verif.Front.LexProofs
import Verif.Front.LexTok
import Verif.Front.LexTop
import Verif.Front.LexConv
import Verif.Front.Tree
import Verif.Front.Parse
import Verif.Front.ExprProofs
import Verif.Front.ParseProofs
import Verif.Front.Literal
import Verif.Front.LitSpec
import Verif.Front.LitProofs
import Verif.Compiler.Move
import Verif.Front.Relocate
import Verif.Props.FrontProps
import Verif.Front.Source
import Verif.Props.SourceProps
import Verif.Util.Path
import Verif.Props.PathProps
import Verif.Compiler.Rename
import Verif.Props.RelocateProps
import Verif.Front.Meaning
import Verif.Front.MeaningProofs
import Verif.Front.MeaningUniq
import Verif.Props.MeaningProps
import Verif.Obj.Equal
import Verif.Obj.EqSpec
import Verif.Obj.EqProofs
import Verif.Obj.HashProofs
import Verif.Obj.Contents
import Verif.Props.EqualProps
import Verif.Obj.Fresh
import Verif.Obj.FreshProofs
import Verif.Props.NewProps
import Verif.Front.Float
import Verif.Front.FloatSpec
import Verif.Front.FloatProofs
import Verif.Expr.Source
import Verif.Expr.SourceSpec
import Verif.Expr.SourceProofs
import Verif.Props.SourceExprProps
import Verif.Compiler.ErrSpec
import Verif.Compiler.ErrOwn
import Verif.Compiler.ErrProofs
import Verif.Compiler.ErrMain
import Verif.Props.ErrorProps
import Verif.Util.Indent
import Verif.Util.IndentProofs
import Verif.Props.IndentProps
import Verif.Props.SizeProps
import Verif.Compiler.WarnSpec
import Verif.Compiler.Warn
import Verif.Compiler.WarnProofs
import Verif.Compiler.WarnMain
import Verif.Props.WarnProps
import Verif.Compiler.Rules
import Verif.Compiler.RuleVisit
import Verif.Compiler.RuleNames
import Verif.Compiler.RuleDefs
import Verif.Compiler.RuleMain
import Verif.Props.RuleProps
import Verif.Codec.Evolve
import Verif.Compiler.Bare
import Verif.Props.ExchangeProps
import Verif.Props.EvolveProps
import Verif.Gen.Members
import Verif.Props.MemberProps
import Verif.Gen.Globals
import Verif.Props.GlobalProps
import Verif.Codec.TgtSafe
import Verif.Codec.TgtLeafSafe
import Verif.Props.NoThrowProps
import Verif.Props.NoThrowMore
import Verif.Props.KeywordProps
import Verif.Props.IdentProps
