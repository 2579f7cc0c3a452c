import Verif.Hash.Props
import Verif.LogicalBool.Props
import Verif.Utf.Props
import Verif.Sort.Props
import Verif.Bits.Props
import Verif.Ubig.Props
import Verif.Bigint.Props
import Verif.Bigfloat.Props
import Verif.Numeral.Props
import Verif.Literal.Props
import Verif.Search.Props
import Verif.Compare.Props
import Verif.Arith.Props
import Verif.Arith.FactorProps
import Verif.Table.Props
import Verif.Table.MapProps
import Verif.Random.Props
import Verif.Ptr.Props
import Verif.Links.Props
import Verif.Pool.Props
import Verif.Cow.Props
import Verif.Pushback.Props
import Verif.Str.Props
import Verif.StrCmp.Props
import Verif.StrEdit.Props
import Verif.Text.Cases
import Verif.Text.Finds
import Verif.Arr.Props
import Verif.Val.Props
import Verif.Node.Props
import Verif.Gc.Props
import Verif.Func.Props
import Verif.Float.Model
import Verif.Float.Spec
import Verif.Float.Lemmas
import Verif.Float.Make
import Verif.Float.Value
import Verif.Float.Decomp
import Verif.Float.Convert
import Verif.Float.Guess
import Verif.Float.Round
import Verif.Float.Props
import Verif.FloatText.Model
import Verif.FloatText.Log
import Verif.FloatText.Lemmas
import Verif.FloatText.Text
import Verif.FloatText.Total
import Verif.FloatText.Props
import Verif.Chars.Data
import Verif.Chars.Model
import Verif.Chars.Spec
import Verif.Chars.Check
import Verif.Chars.Lemmas
import Verif.Chars.Props
import Verif.Stream.Props
import Verif.View.Props
import Verif.Series.Props
import Verif.Series.RateProps
import Verif.Memfile.Props
import Verif.Textio.Props
import Verif.Names.Props
import Verif.Stack.Props
import Verif.Throw.Props
import Verif.Eval.Props
import Verif.Alloc.Props
import Verif.File.Props
import Verif.Codec.Props
import Verif.Iter.Props
import Verif.Convert.Props
import Verif.Native.Props
import Verif.Uniform.Props
import Verif.Interp.Props
import Verif.Special.Props
import Verif.Print.Props
import Verif.Symname.Props
import Verif.Origin.Props
import Verif.Lib.Props
import Verif.Package.Props
import Verif.Count.Props
import Verif.Wide.Props
import Verif.Sqrt.InvProps
import Verif.Whole.Props
import Verif.Numhash.Props
import Verif.Shift.Props
import Verif.Die.Props
import Verif.Term.Props
import Verif.Charat.Props
import Verif.Mixed.Props
import Verif.Timer.Props
import Verif.Stdwrap.Props
import Verif.Fill.Props
import Verif.Insert.Props
import Verif.Assign.Props
import Verif.Bittext.Props
import Verif.Trig.Props
import Verif.Cast.Props
import Verif.Asval.Props
