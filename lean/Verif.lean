import Verif.Arbi.Props
import Verif.Bv.Props
import Verif.Bdd.Props
import Verif.Lib.Props
import Verif.Sim.Props
import Verif.Ste.Props
import Verif.Bexpr.Props
import Verif.Fl.Props
import Verif.Fl.HeapProps
import Verif.Cache.Props
import Verif.Cache.TableProps
import Verif.Type.Props
import Verif.Type.OverProps
import Verif.Type.DeclProps
import Verif.Type.PrintProps
import Verif.Io.FmtProps
import Verif.Io.SaveProps
import Verif.Gc.Props
import Verif.Lst.Props
import Verif.Lst.CmpProps
import Verif.Comp.Props
import Verif.Comp.RankProps
import Verif.Vec.Props
import Verif.Vec.MergeProps
import Verif.Vec.ExtractProps
import Verif.Node.Props
import Verif.Txt.Props
import Verif.Txt.RegexProps
import Verif.Hier.Props
import Verif.Hier.AdjProps
import Verif.Hier.FoldProps
import Verif.Vec.KeepProps
import Verif.Sha.Props
import Verif.Sha.GraphProps
import Verif.Iso.Props
import Verif.Inst.FpProps
import Verif.Inst.ShaProps
import Verif.Inst.MkProps
import Verif.Lp.Props
import Verif.Pre.ParamProps
import Verif.Pre.ExampleProps
import Verif.Pre.RangeProps
import Verif.Pre.PowProps
import Verif.Para.Props
import Verif.Pre.IntsProps
import Verif.Pre.EarlyProps
import Verif.Vlib.RatProps
import Verif.Vlib.UnaryProps
import Verif.Bv.BevProps
import Verif.Gen.FixedProps
import Verif.Gen.DynProps
import Verif.Scope.Props
import Verif.Slist.Props
import Verif.Sum.Props
import Verif.Smat.OpProps
import Verif.Lex.Props
import Verif.Lex.StrProps
import Verif.Plist.Props
import Verif.Ugen.Props
import Verif.Pretty.Props
import Verif.Gmin.Props
import Verif.Misc.Props
import Verif.Vset.Real
import Verif.Vset.Zip
import Verif.Vset.Whole
import Verif.Bvstr.Props
import Verif.Pline.Props
import Verif.Fops.Props
import Verif.Plugin.Props
import Verif.Fixed.Props
import Verif.Vassoc.Props
import Verif.Smt.Props
