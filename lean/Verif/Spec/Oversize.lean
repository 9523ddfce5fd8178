import Verif.Spec.Layout
/-
C109: what is left of a request on the wire if its arguments are too long for their length fields.  Nothing here refers
to the encoders or decoders.
-/

namespace Ninep.Spec

/-- the length a length field of two bytes gives for `n` -/
def wire16 (n : Nat) : Nat := n % 2 ^ 16

/-- the text of the string in front of the bytes -/
def textAt (b : Bytes) : GoString := (b.drop 2).take (leVal (b.take 2))

/-- the `n` strings in front of the bytes; once one is not there in full, it and all that follow are empty -/
def textsAt : Nat → Bytes → List GoString
  | 0, _ => []
  | n + 1, b =>
    match Kind.str.front b with
    | none => List.replicate (n + 1) []
    | some (w, r) => w.drop 2 :: textsAt n r

/-- The request a reader finds who takes the length fields at their word: a string, a record or a list of names longer
than 2^16 - 1 is cut to its length modulo 2^16, and what comes behind a string is read from the bytes cut off. -/
def TMsg.onWire : TMsg → TMsg
  | .version p => .version { p with TVersion := p.TVersion.take (wire16 p.TVersion.length) }
  | .attach p => .attach { p with
      Uname := p.Uname.take (wire16 p.Uname.length)
      Aname := textAt (p.Uname.drop (wire16 p.Uname.length) ++ str p.Aname) }
  | .walk p => .walk { p with Paths := textsAt (wire16 p.Paths.length) (p.Paths.map str).flatten }
  | .create p =>
    let rest := p.Name.drop (wire16 p.Name.length) ++ le 4 p.CreatePerm.toNat ++ le 1 p.Omode.toNat
    .create { p with
      Name := p.Name.take (wire16 p.Name.length)
      CreatePerm := UInt32.ofNat (leVal (rest.take 4))
      Omode := UInt8.ofNat (leVal ((rest.drop 4).take 1)) }
  | .wstat p => .wstat { p with B := p.B.take (wire16 p.B.length) }
  | m => m

end Ninep.Spec
