import Verif.Server.Dispatch
/-
The per-connection loop `conn.serve` (protocol/server.go:201-244).

The network is what the loop can observe of it: the bytes arrive in segments, one `Read` returns bytes
of one segment only; after the last segment `Read` reports either EOF (the peer closed) or an error.
Each write succeeds or fails.  `spare k` is what lies behind the packet in the array of the k-th
request's `bytes.Buffer` (io.Copy into a bytes.Buffer always leaves spare room; its size is a detail of
the standard library).  Not modelled: `rwc == nil`, logging, running out of memory for a huge `size`.
-/

set_option linter.unusedVariables false

namespace Ninep

/-- how the incoming stream ends -/
inductive StreamEnd where
  | eof
  | error
deriving DecidableEq

/-- drop an exhausted segment -/
def pushSeg (s : Bytes) (rest : List Bytes) : List Bytes := if s.isEmpty then rest else s :: rest

/-- `n, err := c.rwc.Read(l)` with `len(l) = 7`; `none` if `err != nil || n < 7` (server.go:214-219) -/
def readHdr : List Bytes → Option (Bytes × List Bytes)
  | [] => none
  | seg :: rest => if seg.length < 7 then none else some (seg.take 7, pushSeg (seg.drop 7) rest)

/-- `io.Copy(b, io.LimitReader(c.rwc, n))` (server.go:223-224): what was copied, the rest of the stream,
and whether all `n` bytes were there.  A missing part is an error only if the stream ends with one. -/
def readBody : Nat → List Bytes → Bytes × List Bytes × Bool
  | 0, segs => ([], segs, true)
  | _ + 1, [] => ([], [], false)
  | n + 1, seg :: rest =>
    if n + 1 ≤ seg.length then (seg.take (n + 1), pushSeg (seg.drop (n + 1)) rest, true)
    else
      let r := readBody (n + 1 - seg.length) rest
      (seg ++ r.1, r.2.1, r.2.2)

def total (segs : List Bytes) : Nat := segs.flatten.length

theorem total_pushSeg (s : Bytes) (rest : List Bytes) : total (pushSeg s rest) = s.length + total rest := by
  unfold pushSeg total
  by_cases h : s = [] <;> simp [h]

theorem readHdr_total {segs rest : List Bytes} {h : Bytes} (hr : readHdr segs = some (h, rest)) :
    total rest + 7 = total segs := by
  cases segs with
  | nil => cases hr
  | cons seg segs =>
    by_cases hl : seg.length < 7
    · simp [readHdr, hl] at hr
    · simp only [readHdr, hl, if_false, Option.some.injEq, Prod.mk.injEq] at hr
      rw [← hr.2, total_pushSeg]
      simp [total]; omega

theorem readBody_total (n : Nat) (segs : List Bytes) : total (readBody n segs).2.1 ≤ total segs := by
  induction segs generalizing n with
  | nil => cases n <;> simp [readBody]
  | cons seg segs ih =>
    cases n with
    | zero => simp [readBody]
    | succ n =>
      unfold readBody
      split
      · simp only [total_pushSeg]
        simp [total]
      · have := ih (n + 1 - seg.length)
        simp only [total, List.flatten_cons, List.length_append] at *
        omega

/-- why the loop stopped -/
inductive Stop where
  /-- `err != nil || n < 7` on the header -/
  | header
  /-- `io.Copy` returned an error -/
  | body
  /-- the reply could not be written -/
  | write
  /-- a run-time panic; it takes the whole process down -/
  | panic
deriving DecidableEq

/-- What a connection did: the requests that were passed to `Dispatch` (type and packet bytes after the
type), the replies that were written, the final server state and the reason for stopping. -/
structure Served (σ : Type) where
  execd : List (MType × Bytes)
  out : List Bytes
  srv : Server σ
  stop : Stop

/-- `sz := int64(l[0]) + int64(l[1])<<8 + …` (server.go:220) -/
def hdrSize (l : Bytes) : Nat :=
  (l.getD 0 0).toNat + (l.getD 1 0).toNat * 2 ^ 8 + (l.getD 2 0).toNat * 2 ^ 16 + (l.getD 3 0).toNat * 2 ^ 24

section
variable {σ : Type}

/-- The loop of protocol/server.go:212-243.  `k` counts the packets. -/
def serve (ns : NineServer σ) (spare : Nat → Bytes) (wfail : Nat → Bool) (fin : StreamEnd)
    (k : Nat) (s : Server σ) (segs : List Bytes) : Served σ :=
  match hh : readHdr segs with
  | none => { execd := [], out := [], srv := s, stop := .header }
  | some (l, rest) =>
    match hb : readBody (hdrSize l - 7) rest with
    | (body, rest', complete) =>
      if complete = false ∧ fin = .error then { execd := [], out := [], srv := s, stop := .body }
      else
        let b : Buffer := { unread := l.drop 5 ++ body, spare := spare k }
        let t : MType := l.getD 4 0
        match dispatch ns s b t with
        | .panic => { execd := [(t, b.unread)], out := [], srv := s, stop := .panic }
        | .done s' b' =>
          if wfail k then { execd := [(t, b.unread)], out := [], srv := s', stop := .write }
          else
            let r := serve ns spare wfail fin (k + 1) s' rest'
            { r with execd := (t, b.unread) :: r.execd, out := b'.bytes :: r.out }
termination_by total segs
decreasing_by
  have h1 := readHdr_total hh
  have h2 := readBody_total (hdrSize l - 7) rest
  rw [hb] at h2
  simp at h2
  omega

end
end Ninep
