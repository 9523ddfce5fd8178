import Verif.Spec.Wire
/-
The fields of a request one by one, and how much of them is there in a sequence of bytes that need not be a request
(intro(5)).  Nothing here refers to the decoders.
-/

namespace Ninep.Spec

/-- number of `n` bytes; string; data behind a count of `n` bytes -/
inductive Kind where
  | num (n : Nat)
  | str
  | data (n : Nat)
deriving DecidableEq, Repr

/-- the field in front of the bytes, if it is there in full, and what is behind it -/
def Kind.front : Kind → Bytes → Option (Bytes × Bytes)
  | .num n, b => if n ≤ b.length then some (b.take n, b.drop n) else none
  | .str, b => let n := 2 + leVal (b.take 2); if 2 ≤ b.length ∧ n ≤ b.length then some (b.take n, b.drop n) else none
  | .data k, b => let n := k + leVal (b.take k); if k ≤ b.length ∧ n ≤ b.length then some (b.take n, b.drop n) else none

/-- the fields of a message: what comes behind a field may depend on it -/
inductive Layout where
  | done
  | field (k : Kind) (next : Bytes → Layout)

/-- the fields that are there in full, the bytes behind them, and the field that was expected there -/
def Layout.wholes : Layout → Bytes → List Bytes × Bytes × Option Kind
  | .done, b => ([], b, none)
  | .field k next, b =>
    match k.front b with
    | none => ([], b, some k)
    | some (w, r) => let x := (next w).wholes r; (w :: x.1, x.2)

/-- `n` strings -/
def Layout.strs : Nat → Layout
  | 0 => .done
  | n + 1 => .field .str fun _ => strs n

/-- fields that do not depend on each other -/
def Layout.of : List Kind → Layout
  | [] => .done
  | k :: ks => .field k fun _ => of ks

/-- the fields of a request of the type of `m` -/
def TMsg.layout : TMsg → Layout
  | .version _ => .of [.num 4, .str]
  | .attach _ => .of [.num 4, .num 4, .str, .str]
  | .flush _ => .of [.num 2]
  | .walk _ => .field (.num 4) fun _ => .field (.num 4) fun _ => .field (.num 2) fun n => .strs (leVal n)
  | .open_ _ => .of [.num 4, .num 1]
  | .create _ => .of [.num 4, .str, .num 4, .num 1]
  | .read _ => .of [.num 4, .num 8, .num 4]
  | .write _ => .of [.num 4, .num 8, .data 4]
  | .clunk _ => .of [.num 4]
  | .remove _ => .of [.num 4]
  | .stat _ => .of [.num 4]
  | .wstat _ => .of [.num 4, .data 2]

/-- the fields of a request on the wire, one by one -/
def TMsg.parts : TMsg → List Bytes
  | .version p => [le 4 p.TMsize.toNat, str p.TVersion]
  | .attach p => [le 4 p.SFID.toNat, le 4 p.AFID.toNat, str p.Uname, str p.Aname]
  | .flush p => [le 2 p.OTag.toNat]
  | .walk p => le 4 p.SFID.toNat :: le 4 p.NewFID.toNat :: le 2 p.Paths.length :: p.Paths.map str
  | .open_ p => [le 4 p.OFID.toNat, le 1 p.Omode.toNat]
  | .create p => [le 4 p.OFID.toNat, str p.Name, le 4 p.CreatePerm.toNat, le 1 p.Omode.toNat]
  | .read p => [le 4 p.OFID.toNat, le 8 p.Off.toNat, le 4 p.Len.toUInt32.toNat]
  | .write p => [le 4 p.OFID.toNat, le 8 p.Off.toNat, le 4 p.Data.length ++ p.Data]
  | .clunk p => [le 4 p.OFID.toNat]
  | .remove p => [le 4 p.OFID.toNat]
  | .stat p => [le 4 p.OFID.toNat]
  | .wstat p => [le 4 p.OFID.toNat, le 2 p.B.length ++ p.B]

theorem TMsg.parts_flatten (m : TMsg) : m.parts.flatten = m.fields := by
  cases m <;> simp [TMsg.parts, TMsg.fields]

/-- What a server that goes on in spite of an incomplete field makes of the bytes `b` behind the tag: the fields that are
there in full are those of `m`; of a number or data cut off, the bytes that are there are its first ones; a string that is
cut off is empty; everything behind that is zero or empty. -/
structure MadeOf (m : TMsg) (b : Bytes) : Prop where
  fits : m.Fits
  whole : m.parts.take (m.layout.wholes b).1.length = (m.layout.wholes b).1
  cut : ∀ k, (m.layout.wholes b).2.2 = some k → k ≠ .str → (m.layout.wholes b).2.1 <+: m.parts.getD (m.layout.wholes b).1.length []
  empty : (m.layout.wholes b).2.2 = some .str → ∀ x ∈ (m.parts.drop (m.layout.wholes b).1.length).flatten, x = 0
  none : (m.layout.wholes b).2.1 = [] → ∀ x ∈ (m.parts.drop (m.layout.wholes b).1.length).flatten, x = 0
  rest : ∀ x ∈ (m.parts.drop ((m.layout.wholes b).1.length + 1)).flatten, x = 0

end Ninep.Spec
