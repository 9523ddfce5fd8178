import Verif.Server.Serve
import Verif.Spec.Wire
/-
What the server properties are stated with: the file server method a request stands for, a file server
that records its calls, the division of a byte stream into packets, and the sequential processing of
requests.  None of it refers to the decoders, to `Dispatch` or to the `serve` loop.
-/

namespace Ninep.Spec
variable {σ : Type}

/-- change the returned value -/
def mapRes {α β : Type} (f : α → β) : NRes σ α → NRes σ β
  | .panic => .panic
  | .ok s a => .ok s (f a)
  | .err s e => .err s e

/-- The method a request asks for, with the arguments of the request, and its results as a reply. -/
def call (ns : NineServer σ) : TMsg → σ → NRes σ RMsg
  | .version p, s => mapRes (fun q => .version ⟨q.1, q.2⟩) (ns.Rversion p.TMsize p.TVersion s)
  | .attach p, s => mapRes (fun q => .attach ⟨q⟩) (ns.Rattach p.SFID p.AFID p.Uname p.Aname s)
  | .flush p, s => mapRes (fun _ => .flush ⟨⟩) (ns.Rflush p.OTag s)
  | .walk p, s => mapRes (fun q => .walk ⟨q⟩) (ns.Rwalk p.SFID p.NewFID p.Paths s)
  | .open_ p, s => mapRes (fun q => .open_ ⟨q.1, q.2⟩) (ns.Ropen p.OFID p.Omode s)
  | .create p, s => mapRes (fun q => .create ⟨q.1, q.2⟩) (ns.Rcreate p.OFID p.Name p.CreatePerm p.Omode s)
  | .stat p, s => mapRes (fun q => .stat ⟨q⟩) (ns.Rstat p.OFID s)
  | .wstat p, s => mapRes (fun _ => .wstat ⟨⟩) (ns.Rwstat p.OFID p.B s)
  | .clunk p, s => mapRes (fun _ => .clunk ⟨⟩) (ns.Rclunk p.OFID s)
  | .remove p, s => mapRes (fun _ => .remove ⟨⟩) (ns.Rremove p.OFID s)
  | .read p, s => mapRes (fun q => .read ⟨q⟩) (ns.Rread p.OFID p.Off p.Len s)
  | .write p, s => mapRes (fun q => .write ⟨q⟩) (ns.Rwrite p.OFID p.Off p.Data s)

/-- run `f` on the first component and append `c` to the record in the second -/
def recorded {α C : Type} (c : C) (f : σ → NRes σ α) (s : σ × List C) : NRes (σ × List C) α :=
  match f s.1 with
  | .panic => .panic
  | .ok s' a => .ok (s', s.2 ++ [c]) a
  | .err s' e => .err (s', s.2 ++ [c]) e

/-- The file server `ns` with a record of all calls and their arguments. -/
def logged (ns : NineServer σ) : NineServer (σ × List TMsg) where
  Rversion a b := recorded (.version ⟨a, b⟩) (ns.Rversion a b)
  Rattach a b c d := recorded (.attach ⟨a, b, c, d⟩) (ns.Rattach a b c d)
  Rwalk a b c := recorded (.walk ⟨a, b, c⟩) (ns.Rwalk a b c)
  Ropen a b := recorded (.open_ ⟨a, b⟩) (ns.Ropen a b)
  Rcreate a b c d := recorded (.create ⟨a, b, c, d⟩) (ns.Rcreate a b c d)
  Rstat a := recorded (.stat ⟨a⟩) (ns.Rstat a)
  Rwstat a b := recorded (.wstat ⟨a, b⟩) (ns.Rwstat a b)
  Rclunk a := recorded (.clunk ⟨a⟩) (ns.Rclunk a)
  Rremove a := recorded (.remove ⟨a⟩) (ns.Rremove a)
  Rread a b c := recorded (.read ⟨a, b, c⟩) (ns.Rread a b c)
  Rwrite a b c := recorded (.write ⟨a, b, c⟩) (ns.Rwrite a b c)
  Rflush a := recorded (.flush ⟨a⟩) (ns.Rflush a)

/-- the 12 request types -/
def requestTypes : List Nat := [100, 104, 108, 110, 112, 114, 116, 118, 120, 122, 124, 126]

/-- length of the packet at the start of `x`: the size field, but at least the 7 bytes of the header -/
def pktLen (x : Bytes) : Nat := max 7 (leVal (x.take 4))

/-- the tag field of a packet: bytes 5 and 6 -/
def tagField (p : Bytes) : Nat := leVal ((p.drop 5).take 2)

/-- The complete packets at the start of a byte stream (type and everything behind the type) and what is
left over. -/
def frames (x : Bytes) : List (MType × Bytes) × Bytes :=
  if h : x.length < pktLen x then ([], x)
  else
    let r := frames (x.drop (pktLen x))
    ((x.getD 4 0, (x.take (pktLen x)).drop 5) :: r.1, r.2)
termination_by x.length
decreasing_by
  simp only [List.length_drop]
  unfold pktLen at *
  omega

/-- A segmentation that does not cut through a 7 byte packet header: all segments are non-empty and each
cut comes at least 7 bytes behind the last packet boundary, or exactly on it. -/
def Aligned (segs : List Bytes) : Prop :=
  (∀ s ∈ segs, s ≠ []) ∧
  ∀ a b, segs = a ++ b → b ≠ [] → let r := (frames a.flatten).2; r = [] ∨ 7 ≤ r.length

/-- One request processed by the file server: the new state and the packet to answer with. -/
def answer (ns : NineServer σ) (t : Tag) (m : TMsg) (s : σ) : Option (σ × Bytes) :=
  match call ns m s with
  | .panic => none
  | .ok s' r => some (s', r.packet t)
  | .err s' e => some (s', (RMsg.error ⟨e⟩).packet t)

/-- Requests processed one after the other; `none` if the file server panics. -/
def answers (ns : NineServer σ) : List (Tag × TMsg) → σ → Option (σ × List Bytes)
  | [], s => some (s, [])
  | (t, m) :: ms, s =>
    match answer ns t m s with
    | none => none
    | some (s', p) =>
      match answers ns ms s' with
      | none => none
      | some (s'', ps) => some (s'', p :: ps)

end Ninep.Spec
