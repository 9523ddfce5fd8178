import Verif.Server.Trace
import Verif.Lemmas.Stream
import Verif.Props.Conns
/-
Tracing changes nothing, and the trace of a connection tells what it did (C112).
-/

namespace Ninep.Trace
open Spec

variable {σ τ : Type}

/-! ### what a trace should be -/

/-- the line of a connection with a peer at `addr` -/
def line (addr : GoString) (fmt : String) (args : List Arg) : Line := ⟨"[%v] " ++ fmt, .text addr :: args⟩

/-- a request was read: its name and its length without size and type -/
def got (addr : GoString) (q : MType × Bytes) : Line :=
  line addr "readNetPackets: got %v, len %d, sending to IO" [.text (rpcName q.1), .num q.2.length]

/-- the request comes before the first Tversion -/
def refused (addr : GoString) (v : Bool) (t : MType) : List Line :=
  if v || t == MT.Tversion then []
  else [line addr "%v: %v" [.text (rpcName t), .text (lit "Dispatch: " ++ rpcName t ++ lit " not allowed before Tversion")]]

/-- a reply is about to be written -/
def writing (addr : GoString) (r : Bytes) : Line := line addr "readNetPackets: Write %v back" [.packet r]

/-- a reply was written -/
def returned (addr : GoString) (r : Bytes) : Line := line addr "Returned %v amt %v" [.packet r, .num r.length]

/-- The lines about the requests and their replies.  `v` tells whether there was a Tversion before.  The last
request may be without a reply; then `lost` is the reply that could not be written, if there was one. -/
def lines (addr : GoString) (lost : Option Bytes) : Bool → List (MType × Bytes) → List Bytes → List Line
  | v, q :: qs, r :: rs =>
    got addr q :: (refused addr v q.1 ++ writing addr r :: returned addr r :: lines addr lost (v || q.1 == MT.Tversion) qs rs)
  | v, q :: _, [] =>
    got addr q :: match lost with
      | none => []
      | some r => refused addr v q.1 ++ [writing addr r]
  | _, [], _ => []

/-- the last line tells why the connection ended; there is none after a panic -/
def ending (addr : GoString) (e : IOErr) : Stop → List Line
  | .header => [line addr "readNetPackets: short read: %v" [.err e]]
  | .body => [line addr "readNetPackets: short read: %v" [.err .error]]
  | .write => [line addr "readNetPackets: write error: %v" [.err .error]]
  | .panic => []

/-- the whole trace of a connection that did `r` -/
def transcript (addr : GoString) (v : Bool) (lost : Option Bytes) (e : IOErr) (r : Served σ) : List Line :=
  line addr "Starting readNetPackets" [] :: (lines addr lost v r.execd r.out ++ ending addr e r.stop)

/-- what a tracer does with a trace -/
def run (tr : Tracer τ) (ls : List Line) (w : τ) : τ :=
  match tr with
  | none => w
  | some f => ls.foldl (fun w l => f l w) w

/-- the tracer that keeps all it is given -/
def keep : Tracer (List Line) := some fun l ls => ls ++ [l]

/-! ### proofs -/

theorem run_keep (ls w : List Line) : run keep ls w = w ++ ls := by
  simp only [run, keep]
  induction ls generalizing w with
  | nil => simp
  | cons l ls ih => simp [ih]

theorem run_append (tr : Tracer τ) (a b : List Line) (w : τ) : run tr (a ++ b) w = run tr b (run tr a w) := by
  cases tr <;> simp [run]

theorem run_cons (tr : Tracer τ) (l : Line) (b : List Line) (w : τ) : run tr (l :: b) w = run tr b (run tr [l] w) :=
  run_append tr [l] b w

theorem connLogf_run (tr : Tracer τ) (addr : GoString) (fmt : String) (args : List Arg) (w : τ) :
    connLogf tr addr fmt args w = run tr [line addr fmt args] w := by
  cases tr <;> rfl

theorem refused_run (tr : Tracer τ) (addr : GoString) (s : Server σ) (t : MType) (w : τ) :
    logErr tr addr t (dispatchErr s t) w = run tr (refused addr s.Versioned t) w := by
  unfold dispatchErr refused logErr
  by_cases ht : t = MT.Tversion
  · cases tr <;> simp [ht, run]
  · cases hv : s.Versioned
    · simp [ht, connLogf_run]
    · cases tr <;> simp [ht, run]

/-- the bytes of the requests and their sizes and types -/
def consumed (qs : List (MType × Bytes)) : Nat := (qs.map fun q => 5 + q.2.length).sum

/-- what the reply that was lost and the error of the last read are -/
structure Ended (ns : NineServer σ) (spare : Nat → Bytes) (fin : StreamEnd) (k : Nat) (s : Server σ) (segs : List Bytes)
    (r : Served σ) (lost : Option Bytes) (e : IOErr) : Prop where
  /-- a reply was lost iff a write failed -/
  lost_iff : lost ≠ none ↔ r.stop = .write
  /-- it is the one that would have been written -/
  lost_eq : ∀ b, lost = some b → (Ninep.serve ns spare (fun _ => false) fin k s segs).out[r.out.length]? = some b
  /-- there is an error at the end of the stream only -/
  err_eq : e = .none ∨ e = endErr fin
  /-- no error if bytes are left over -/
  err_none : r.stop = .header → ([] ∉ segs) → (e = .none ↔ consumed r.execd < segs.flatten.length)

theorem pushSeg_nonempty {s : Bytes} {rest : List Bytes} (h : [] ∉ rest) : [] ∉ pushSeg s rest := by
  unfold pushSeg
  cases s <;> simp [h]

theorem readHdr_nonempty {segs rest : List Bytes} {l : Bytes} (h : readHdr segs = some (l, rest)) (hs : [] ∉ segs) :
    [] ∉ rest := by
  cases segs with
  | nil => cases h
  | cons seg segs =>
    rw [readHdr] at h
    split at h
    · cases h
    · cases h
      exact pushSeg_nonempty fun hm => hs (List.mem_cons_of_mem _ hm)

theorem readBody_nonempty (n : Nat) {segs : List Bytes} (hs : [] ∉ segs) : [] ∉ (readBody n segs).2.1 := by
  induction segs generalizing n with
  | nil => cases n <;> simp [readBody]
  | cons seg segs ih =>
    cases n with
    | zero => simpa [readBody] using hs
    | succ n =>
      have : [] ∉ segs := fun hm => hs (List.mem_cons_of_mem _ hm)
      rw [readBody]
      split
      · exact pushSeg_nonempty this
      · exact ih _ this

theorem readBody_split (n : Nat) (segs : List Bytes) :
    (readBody n segs).1.length + total (readBody n segs).2.1 = total segs := by
  obtain ⟨h1, h2, -⟩ := readBody_eq n segs
  rw [total, h2, h1, total, ← List.length_append, List.take_append_drop]

theorem readHdr_length {segs rest : List Bytes} {l : Bytes} (h : readHdr segs = some (l, rest)) : l.length = 7 := by
  cases segs with
  | nil => cases h
  | cons seg segs =>
    rw [readHdr] at h
    split at h
    · cases h
    · cases h
      simp; omega

theorem serve_unfold_some (ns : NineServer σ) (spare : Nat → Bytes) (wfail : Nat → Bool) (fin : StreamEnd)
    (k : Nat) (s : Server σ) {segs rest : List Bytes} {l : Bytes} (h : readHdr segs = some (l, rest))
    (hc : ¬((readBody (hdrSize l - 7) rest).2.2 = false ∧ fin = .error)) :
    Ninep.serve ns spare wfail fin k s segs =
      match dispatch ns s ⟨[], l.drop 5 ++ (readBody (hdrSize l - 7) rest).1, spare k⟩ (l.getD 4 0) with
      | .panic => { execd := [(l.getD 4 0, l.drop 5 ++ (readBody (hdrSize l - 7) rest).1)], out := [], srv := s, stop := .panic }
      | .done s' b' =>
        if wfail k then
          { execd := [(l.getD 4 0, l.drop 5 ++ (readBody (hdrSize l - 7) rest).1)], out := [], srv := s', stop := .write }
        else
          let r := Ninep.serve ns spare wfail fin (k + 1) s' (readBody (hdrSize l - 7) rest).2.1
          { r with execd := (l.getD 4 0, l.drop 5 ++ (readBody (hdrSize l - 7) rest).1) :: r.execd, out := b'.bytes :: r.out } := by
  rw [serve_eq, reads_some h, if_neg hc]
  simp only [process]
  cases dispatch ns s ⟨[], l.drop 5 ++ (readBody (hdrSize l - 7) rest).1, spare k⟩ (l.getD 4 0) with
  | panic => rfl
  | done s' b' =>
    dsimp only
    split
    · rfl
    · rw [serve_eq]

/-- the loop with a tracer is the loop without, and the tracer is given the transcript -/
theorem loop_spec (addr : GoString) (ns : NineServer σ) (spare : Nat → Bytes) (wfail : Nat → Bool) (fin : StreamEnd)
    (k : Nat) (s : Server σ) (segs : List Bytes) :
    let r := Ninep.serve ns spare wfail fin k s segs
    ∃ lost e, Ended ns spare fin k s segs r lost e ∧
      ∀ (τ : Type) (tr : Tracer τ) (w : τ), loop tr addr ns spare wfail fin k s w segs =
        (r, run tr (lines addr lost s.Versioned r.execd r.out ++ ending addr e r.stop) w) := by
  induction hn : total segs using Nat.strongRecOn generalizing k s segs with
  | ind n ih =>
    dsimp only
    cases hh : readHdr segs with
    | none =>
      have hr : Ninep.serve ns spare wfail fin k s segs = { execd := [], out := [], srv := s, stop := .header } := by
        rw [serve_eq, reads_none hh]; rfl
      rw [hr]
      refine ⟨none, hdrErr fin segs, ⟨by simp, by simp, ?_, ?_⟩, ?_⟩
      · cases segs <;> simp [hdrErr]
      · intro _ hs
        cases segs with
        | nil => cases fin <;> simp [hdrErr, endErr, consumed]
        | cons seg segs =>
          cases seg with
          | nil => simp at hs
          | cons => simp [hdrErr, consumed]
      · intro τ tr w
        rw [loop]
        split
        · simp [lines, ending, connLogf_run]
        · rename_i h; rw [hh] at h; cases h
    | some x =>
      obtain ⟨l, rest⟩ := x
      have h1 := readHdr_total hh
      have h2 := readBody_split (hdrSize l - 7) rest
      have hl := readHdr_length hh
      by_cases hc : (readBody (hdrSize l - 7) rest).2.2 = false ∧ fin = .error
      · have hr : Ninep.serve ns spare wfail fin k s segs = { execd := [], out := [], srv := s, stop := .body } := by
          rw [serve_eq, reads_some hh, if_pos hc]; rfl
        rw [hr]
        refine ⟨none, .none, ⟨by simp, by simp, .inl rfl, by simp⟩, ?_⟩
        intro τ tr w
        rw [loop]
        split
        · rename_i h; rw [hh] at h; cases h
        · rename_i h; rw [hh] at h; cases h
          dsimp only
          rw [if_pos hc]
          simp [lines, ending, connLogf_run]
      · have hu := fun wf => serve_unfold_some ns spare wf fin k s hh hc
        have hloop : ∀ (τ : Type) (tr : Tracer τ) (w : τ), loop tr addr ns spare wfail fin k s w segs =
            let q := (l.getD 4 0, l.drop 5 ++ (readBody (hdrSize l - 7) rest).1)
            let w := run tr [got addr q] w
            match dispatch ns s ⟨[], q.2, spare k⟩ q.1 with
            | .panic => ({ execd := [q], out := [], srv := s, stop := .panic }, w)
            | .done s' b' =>
              let w := run tr [writing addr b'.bytes] (run tr (refused addr s.Versioned q.1) w)
              if wfail k then
                ({ execd := [q], out := [], srv := s', stop := .write }, run tr (ending addr .none .write) w)
              else
                let w := run tr [returned addr b'.bytes] w
                let r := loop tr addr ns spare wfail fin (k + 1) s' w (readBody (hdrSize l - 7) rest).2.1
                ({ r.1 with execd := q :: r.1.execd, out := b'.bytes :: r.1.out }, r.2) := by
          intro τ tr w
          rw [loop]
          split
          · rename_i h; rw [hh] at h; cases h
          · rename_i h; rw [hh] at h; cases h
            dsimp only
            rw [if_neg hc]
            simp only [refused_run, connLogf_run]
            rfl
        cases hd : dispatch ns s ⟨[], l.drop 5 ++ (readBody (hdrSize l - 7) rest).1, spare k⟩ (l.getD 4 0) with
        | panic =>
          simp only [hd] at hu hloop
          rw [hu]
          refine ⟨none, .none, ⟨by simp, by simp, .inl rfl, by simp⟩, fun τ tr w => ?_⟩
          rw [hloop]
          simp [lines, ending]
        | done s' b' =>
          simp only [hd] at hu hloop
          have hv := (Ufs.dispatch_calls ns hd).1
          by_cases hw : wfail k
          · rw [hu, if_pos hw]
            refine ⟨some b'.bytes, .none, ⟨by simp, ?_, .inl rfl, by simp⟩, fun τ tr w => ?_⟩
            · intro b hb
              cases hb
              rw [hu]
              simp
            · rw [hloop, if_pos hw]
              simp only [lines, ← run_append, List.append_assoc, List.cons_append, List.nil_append]
          · obtain ⟨lost, e, he, hl'⟩ := ih (total (readBody (hdrSize l - 7) rest).2.1) (by omega) (k + 1) s' _ rfl
            have hu' := hu wfail
            rw [if_neg hw] at hu'
            refine ⟨lost, e, ⟨?_, ?_, he.err_eq, ?_⟩, fun τ tr w => ?_⟩
            · rw [hu']; exact he.lost_iff
            · intro b hb
              rw [hu', hu]
              simpa using he.lost_eq b hb
            · intro hst hs
              rw [hu'] at hst ⊢
              have := he.err_none hst (readBody_nonempty _ (readHdr_nonempty hh hs))
              rw [this]
              simp only [consumed, List.map_cons, List.sum_cons, List.length_append, List.length_drop, total] at *
              omega
            · rw [hloop, if_neg hw, hl', hu']
              simp only [lines, ← run_append, List.append_assoc, List.cons_append, List.nil_append, hv]

/-- C112: a connection does the same with any tracer, and with none.  What the tracer is given is the transcript of
what the connection did: of every request that was read its name and length, of every reply its bytes, and why the
connection ended. -/
theorem C112_trace (addr : GoString) (ns : NineServer σ) (spare : Nat → Bytes) (wfail : Nat → Bool) (fin : StreamEnd)
    (s : Server σ) (segs : List Bytes) :
    let r := Ninep.serve ns spare wfail fin 0 s segs
    ∃ lost e, Ended ns spare fin 0 s segs r lost e ∧
      ∀ (τ : Type) (tr : Tracer τ) (w : τ), serve tr addr ns spare wfail fin s w segs =
        (r, run tr (transcript addr s.Versioned lost e r) w) := by
  obtain ⟨lost, e, he, h⟩ := loop_spec addr ns spare wfail fin 0 s segs
  refine ⟨lost, e, he, fun τ tr w => ?_⟩
  rw [serve, h, connLogf_run, transcript, ← run_append]
  rfl

/-- C112: tracing changes nothing -/
theorem C112_transparent (addr : GoString) (ns : NineServer σ) (spare : Nat → Bytes) (wfail : Nat → Bool) (fin : StreamEnd)
    (s : Server σ) (segs : List Bytes) (tr : Tracer τ) (w : τ) :
    (serve tr addr ns spare wfail fin s w segs).1 = Ninep.serve ns spare wfail fin 0 s segs := by
  obtain ⟨lost, e, -, h⟩ := C112_trace addr ns spare wfail fin s segs
  rw [h]

/-! ### reading the trace -/

/-- the reply in a line about a reply that was written -/
def replyOf (l : Line) : Option Bytes :=
  if l.fmt = "[%v] Returned %v amt %v" then
    match l.args with
    | [_, .packet b, _] => some b
    | _ => none
  else none

/-- name and length in a line about a request that was read -/
def requestOf (l : Line) : Option (GoString × Nat) :=
  if l.fmt = "[%v] readNetPackets: got %v, len %d, sending to IO" then
    match l.args with
    | [_, .text t, .num n] => some (t, n)
    | _ => none
  else none

theorem replyOf_got (a q) : replyOf (got a q) = none := by simp [replyOf, got, line]
theorem replyOf_writing (a r) : replyOf (writing a r) = none := by simp [replyOf, writing, line]
theorem replyOf_returned (a r) : replyOf (returned a r) = some r := by simp [replyOf, returned, line]
theorem requestOf_got (a q) : requestOf (got a q) = some (rpcName q.1, q.2.length) := by simp [requestOf, got, line]
theorem requestOf_writing (a r) : requestOf (writing a r) = none := by simp [requestOf, writing, line]
theorem requestOf_returned (a r) : requestOf (returned a r) = none := by simp [requestOf, returned, line]

theorem replyOf_refused (a v t) : (refused a v t).filterMap replyOf = [] := by
  unfold refused
  split <;> simp [replyOf, line]

theorem requestOf_refused (a v t) : (refused a v t).filterMap requestOf = [] := by
  unfold refused
  split <;> simp [requestOf, line]

theorem ending_none (a e s) : (ending a e s).filterMap replyOf = [] ∧ (ending a e s).filterMap requestOf = [] := by
  cases s <;> simp [ending, replyOf, requestOf, line]

theorem lines_read (a : GoString) (lost : Option Bytes) (v : Bool) (qs : List (MType × Bytes)) (rs : List Bytes)
    (h : rs.length ≤ qs.length) (hq : qs.length ≤ rs.length + 1) :
    (lines a lost v qs rs).filterMap replyOf = rs ∧
    (lines a lost v qs rs).filterMap requestOf = qs.map fun q => (rpcName q.1, q.2.length) := by
  induction qs generalizing rs v with
  | nil =>
    cases rs with
    | nil => simp [lines]
    | cons => simp at h
  | cons q qs ih =>
    cases rs with
    | nil =>
      have : qs = [] := by cases qs <;> simp_all
      subst this
      cases lost <;> simp [lines, replyOf_got, replyOf_writing, requestOf_got, requestOf_writing, replyOf_refused, requestOf_refused]
    | cons r rs =>
      obtain ⟨h1, h2⟩ := ih (v || q.1 == MT.Tversion) rs (by simpa using h) (by simpa using hq)
      simp [lines, replyOf_got, replyOf_writing, replyOf_returned, requestOf_got, requestOf_writing, requestOf_returned,
        replyOf_refused, requestOf_refused, h1, h2]

theorem process_lengths (ns : NineServer σ) (spare : Nat → Bytes) (wfail : Nat → Bool) (k : Nat) (s : Server σ)
    (qs : List (MType × Bytes)) (e : Stop) :
    (process ns spare wfail k s qs e).out.length ≤ (process ns spare wfail k s qs e).execd.length ∧
    (process ns spare wfail k s qs e).execd.length ≤ (process ns spare wfail k s qs e).out.length + 1 := by
  induction qs generalizing k s with
  | nil => simp [process]
  | cons q qs ih =>
    obtain ⟨t, w⟩ := q
    rw [process]
    split
    · simp
    · dsimp only
      split
      · simp
      · rename_i s' b' _ _
        have := ih (k + 1) s'
        simp only [List.length_cons]
        omega

/-- C112: the replies that were written can be read off the trace, byte for byte, and of the requests that were
executed the names and lengths -/
theorem C112_read (addr : GoString) (ns : NineServer σ) (spare : Nat → Bytes) (wfail : Nat → Bool) (fin : StreamEnd)
    (s : Server σ) (segs : List Bytes) :
    let x := serve keep addr ns spare wfail fin s [] segs
    x.2.filterMap replyOf = x.1.out ∧
    x.2.filterMap requestOf = x.1.execd.map (fun q => (rpcName q.1, q.2.length)) ∧
    ∀ l ∈ x.2, l.args.head? = some (.text addr) := by
  obtain ⟨lost, e, -, h⟩ := C112_trace addr ns spare wfail fin s segs
  dsimp only
  rw [h, run_keep]
  have hl := process_lengths ns spare wfail 0 s (reads fin segs).1 (reads fin segs).2
  rw [← serve_eq] at hl
  generalize Ninep.serve ns spare wfail fin 0 s segs = r at hl ⊢
  obtain ⟨h1, h2⟩ := lines_read addr lost s.Versioned r.execd r.out hl.1 hl.2
  obtain ⟨h3, h4⟩ := ending_none addr e r.stop
  refine ⟨?_, ?_, ?_⟩
  · simp [transcript, List.filterMap_append, h1, h3, replyOf, line]
  · simp [transcript, List.filterMap_append, h2, h4, requestOf, line]
  · have key : ∀ (v : Bool) (qs : List (MType × Bytes)) (rs : List Bytes), ∀ l ∈ lines addr lost v qs rs,
        l.args.head? = some (.text addr) := by
      have hrf : ∀ v t, ∀ l ∈ refused addr v t, l.args.head? = some (.text addr) := by
        intro v t l hl
        unfold refused at hl
        split at hl
        · cases hl
        · simp only [List.mem_singleton] at hl
          rw [hl]; rfl
      intro v qs
      induction qs generalizing v with
      | nil => intro rs l hl; simp [lines] at hl
      | cons q qs ih =>
        intro rs l hl
        cases rs with
        | nil =>
          cases lost with
          | none =>
            simp only [lines, List.mem_singleton] at hl
            rw [hl]; rfl
          | some b =>
            simp only [lines, List.mem_cons, List.mem_append, List.not_mem_nil, or_false] at hl
            rcases hl with rfl | hl | rfl
            · rfl
            · exact hrf _ _ _ hl
            · rfl
        | cons r rs =>
          simp only [lines, List.mem_cons, List.mem_append] at hl
          rcases hl with rfl | hl | rfl | rfl | hl
          · rfl
          · exact hrf _ _ _ hl
          · rfl
          · rfl
          · exact ih _ _ _ hl
    intro l hl
    simp only [List.nil_append, transcript, List.mem_cons, List.mem_append] at hl
    rcases hl with rfl | hl | hl
    · rfl
    · exact key _ _ _ _ hl
    · cases hst : r.stop <;> rw [hst] at hl <;> simp only [ending, List.mem_singleton, List.not_mem_nil] at hl <;> rw [hl] <;> rfl

/-! ### a trace -/

/-- a packet that is too early, followed by three bytes and the end of the stream -/
example (addr : GoString) (ns : NineServer σ) (x : σ) :
    ∃ r, serve keep addr ns (fun _ => []) (fun _ => false) .eof ⟨x, false⟩ [] [[7, 0, 0, 0, 120, 5, 0], [1, 2, 3]] =
      (⟨[(120, [5, 0])], [r], ⟨x, false⟩, .header⟩,
        [⟨"[%v] Starting readNetPackets", [.text addr]⟩,
         ⟨"[%v] readNetPackets: got %v, len %d, sending to IO", [.text addr, .text (lit "Tclunk"), .num 2]⟩,
         ⟨"[%v] %v: %v", [.text addr, .text (lit "Tclunk"), .text (lit "Dispatch: Tclunk not allowed before Tversion")]⟩,
         ⟨"[%v] readNetPackets: Write %v back", [.text addr, .packet r]⟩,
         ⟨"[%v] Returned %v amt %v", [.text addr, .packet r, .num r.length]⟩,
         ⟨"[%v] readNetPackets: short read: %v", [.text addr, .err .none]⟩]) := by
  have h1 : readHdr [[7, 0, 0, 0, 120, 5, 0], [1, 2, 3]] = some ([7, 0, 0, 0, 120, 5, 0], [[1, 2, 3]]) := rfl
  have h2 : readHdr [[1, 2, 3]] = none := rfl
  have hs : Ninep.serve ns (fun _ => []) (fun _ => false) .eof 0 ⟨x, false⟩ [[7, 0, 0, 0, 120, 5, 0], [1, 2, 3]] =
      ⟨[(120, [5, 0])], [(marshalRerror ⟨[], [5, 0], []⟩ 5 { Error := lit "Dispatch: " ++ rpcName 120 ++ lit " not allowed before Tversion" }).bytes],
        ⟨x, false⟩, .header⟩ := by
    rw [serve_eq, reads_some h1]
    have : readBody (hdrSize [7, 0, 0, 0, 120, 5, 0] - 7) [[1, 2, 3]] = ([], [[1, 2, 3]], true) := rfl
    rw [this, reads_none h2]
    rfl
  obtain ⟨lost, e, he, h⟩ := C112_trace addr ns (fun _ => []) (fun _ => false) .eof ⟨x, false⟩ [[7, 0, 0, 0, 120, 5, 0], [1, 2, 3]]
  rw [h, run_keep]
  rw [hs] at he ⊢
  have e0 : e = .none := (he.err_none rfl (by decide)).2 (show 7 < 10 by decide)
  subst e0
  exact ⟨_, rfl⟩

/-- the contents of the requests are not in the trace: requests to flush different tags that are answered alike give
the same trace -/
example (addr : GoString) (ns : NineServer Unit) (hns : ∀ o, ns.Rflush o () = .ok () ()) : ∃ a b : List Bytes,
    (serve keep addr ns (fun _ => []) (fun _ => false) .eof ⟨(), true⟩ [] a).2 =
      (serve keep addr ns (fun _ => []) (fun _ => false) .eof ⟨(), true⟩ [] b).2 ∧
    (Ninep.serve ns (fun _ => []) (fun _ => false) .eof 0 ⟨(), true⟩ a).execd ≠
      (Ninep.serve ns (fun _ => []) (fun _ => false) .eof 0 ⟨(), true⟩ b).execd := by
  have key : ∀ c : UInt8, Ninep.serve ns (fun _ => []) (fun _ => false) .eof 0 ⟨(), true⟩ [[9, 0, 0, 0, 108, 5, 0, c, 0]] =
      ⟨[(108, [5, 0, c, 0])], [[7, 0, 0, 0, 109, 5, 0]], ⟨(), true⟩, .header⟩ := by
    intro c
    rw [serve_eq, reads_some (l := [9, 0, 0, 0, 108, 5, 0]) (rest := [[c, 0]]) rfl]
    have : readBody (hdrSize [9, 0, 0, 0, 108, 5, 0] - 7) [[c, 0]] = ([c, 0], [], true) := rfl
    rw [this, reads_none (segs := []) rfl]
    have hd : dispatch ns ⟨(), true⟩ ⟨[], [5, 0, c, 0], []⟩ 108 =
        srvRflush ns ⟨(), true⟩ ⟨[], [5, 0, c, 0], []⟩ := rfl
    have hu : ∃ p e b, unmarshalTflush ⟨[], [5, 0, c, 0], []⟩ = .done p 5 e b := by
      have hb : [5, 0, c, 0] = (TMsg.flush ⟨c.toUInt16⟩).body 5 := by
        have h' : c.toNat / 256 = 0 := Nat.div_eq_of_lt c.toNat_lt
        simp [TMsg.body, TMsg.fields, le, h']
      exact ⟨_, _, _, by rw [hb]; exact decodes_Tflush.fwd [] [] 5 ⟨c.toUInt16⟩ trivial⟩
    obtain ⟨p, e, b, hu⟩ := hu
    have h1 : dispatch ns ⟨(), true⟩ ⟨[], [5, 0, c, 0], []⟩ 108 = .done ⟨(), true⟩ (marshalRflush b 5 {}) := by
      rw [hd]
      simp [srvRflush, srvCall, hu, hns]
    have h2 : (marshalRflush b 5 {}).bytes = [7, 0, 0, 0, 109, 5, 0] := encodeR_bytes b 5 (.flush {})
    simp [process, h1, h2]
  refine ⟨[[9, 0, 0, 0, 108, 5, 0, 1, 0]], [[9, 0, 0, 0, 108, 5, 0, 2, 0]], ?_, by rw [key, key]; simp⟩
  have go : ∀ c : UInt8, (serve keep addr ns (fun _ => []) (fun _ => false) .eof ⟨(), true⟩ [] [[9, 0, 0, 0, 108, 5, 0, c, 0]]).2 =
      transcript addr true none .eof ⟨[(108, [5, 0, 0, 0])], [[7, 0, 0, 0, 109, 5, 0]], (⟨(), true⟩ : Server Unit), .header⟩ := by
    intro c
    obtain ⟨l, e, h, k⟩ := C112_trace addr ns (fun _ => []) (fun _ => false) .eof ⟨(), true⟩ [[9, 0, 0, 0, 108, 5, 0, c, 0]]
    rw [k, run_keep]
    rw [key] at h ⊢
    have he : e = .eof := h.err_eq.resolve_left fun he => absurd ((h.err_none rfl (by simp)).1 he) (show ¬ 9 < 9 by decide)
    have hl : l = none := by
      have := h.lost_iff
      cases l <;> simp_all
    rw [he, hl]
    rfl
  rw [go, go]

end Ninep.Trace
