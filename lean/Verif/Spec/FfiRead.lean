import Verif.Model.FfiRead
import Verif.Spec.PyPkt
/-!
# Specification of reading in the bindings
-/
namespace Verif.Spec
open Verif Verif.Pkt Verif.Ffi

/-- How JavaScript is to see a result of the library: the number of bytes if more are needed, else the text of the error. -/
def asJs {α : Type} : Res α → Except (Fault JsReadErr) α
  | .ok a => .ok a
  | .error (.err .missingHeader) => .error (.err (.number 68))
  | .error (.err (.missingBytes n)) => .error (.err (.number n))
  | .error (.err e) => .error (.err (.text e))
  | .error .panic => .error .panic

/-- A format of serde for byte strings: what was written can be read. -/
structure ByteFormat (Text : Type) where
  write : Bytes → Text
  read : Text → Option Bytes
  back : ∀ b, read (write b) = some b

end Verif.Spec
