import Verif.Model.Bytes
/-!
# Specification of base64, byte arithmetic and Python slices
-/
namespace Verif.Spec
open Verif

/-- The number a list of digits denotes, most significant first. -/
def ofDigits (base : Nat) : List Nat → Nat
  | [] => 0
  | d :: ds => d * base ^ ds.length + ofDigits base ds

/-- The first 62 characters of every base64 alphabet, in order. -/
def b64Common : String := "ABCDEFGHIJKLMNOPQRSTUVWXYZabcdefghijklmnopqrstuvwxyz0123456789"
def b64UrlSafe : List UInt8 := ascii (b64Common ++ "-_")
def b64Standard : List UInt8 := ascii (b64Common ++ "+/")

/-- `s` is the unpadded base64 text of `bs`: the fewest characters that hold all bits; read as a base-64 number they are
the bytes read as a number followed by zero bits. -/
def Base64 (alphabet : List UInt8) (s bs : Bytes) : Prop :=
  ∃ ds : List Nat, s.map some = ds.map (alphabet[·]?) ∧ 3 * s.length ≤ 4 * bs.length + 2 ∧ 4 * bs.length ≤ 3 * s.length ∧
    ofDigits 64 ds = beNat bs * 2 ^ (6 * s.length - 8 * bs.length)

/-- A Python slice index: negative counts from the end, then clipped to the bounds the step direction allows. -/
def pyIndex (len : Nat) (step v : Int) : Int :=
  let w := if v < 0 then v + len else v
  if step > 0 then max 0 (min w len) else max (-1) (min w (len - 1))
/-- Missing indexes mean "from the first" and "past the last" in the direction of the step. -/
def pyStart (len : Nat) (step : Int) : Option Int → Int
  | some v => pyIndex len step v
  | none => if step > 0 then 0 else len - 1
def pyStop (len : Nat) (step : Int) : Option Int → Int
  | some v => pyIndex len step v
  | none => if step > 0 then len else -1

/-- `out` is `bytes[start:stop:step]`: its `k`-th byte sits at `start + k * step` as long as that is before `stop`. -/
def PySlice {α : Type} (bytes : List α) (start stop : Option Int) (step : Int) (out : List α) : Prop :=
  ∀ k : Nat, out[k]? =
    let i := pyStart bytes.length step start + k * step
    let e := pyStop bytes.length step stop
    if (step > 0 ∧ i < e) ∨ (step < 0 ∧ e < i) then bytes[i.toNat]? else none

end Verif.Spec
