import Verif.Ufs.Process
import Verif.Props.Crash
import Verif.Props.Threads
import Verif.Props.Listener
import Verif.Props.Remote

set_option linter.unusedSimpArgs false
set_option linter.unusedVariables false

/-!
# The program ufs as a whole (C95)
-/

namespace Ninep.Ufs
open Spec

variable {ω H : Type} (host : Host ω H) (user rootPath : GoString)

/-- what a step is for the threads of Ufs/Threads.lean -/
def DLabel.threads : DLabel ω H → List (Label ω H)
  | .listener n => List.replicate n .accept
  | .hangup i => [.hangup i]
  | .start i got spare => [.start i (got.getD 4 0) (got.drop 5) spare]
  | .call i e => [.call i e]
  | .reply i written => [.reply i written]
  | .other w => [.other w]
  | _ => []

/-- the packets that connection `i` has worked on or works on, from the first byte of the header on, each with the
bytes behind it in the buffer -/
def jobs (i : Nat) (ls : List (DLabel ω H)) : List (Bytes × Bytes) :=
  ls.flatMap fun l => match l with
    | .start j got spare => if j = i then [(got, spare)] else []
    | _ => []

/-- those packets alone -/
def taken (i : Nat) (ls : List (DLabel ω H)) : List Bytes := (jobs i ls).map (·.1)

/-- the calls of the operating system made for connection `i`, with their answers -/
def made (i : Nat) (ls : List (DLabel ω H)) : List (Ev H) :=
  ls.flatMap fun l => match l with
    | .call j e => if j = i then [e] else []
    | _ => []

def Daemon.threads (d : Daemon ω H) : TProc ω H := { world := d.world, thr := d.conns.map (·.thr) }

theorem set_self {α : Type} {l : List α} {i : Nat} {a : α} (h : l[i]? = some a) : l.set i a = l := by
  obtain ⟨hi, rfl⟩ := List.getElem?_eq_some_iff.1 h
  exact List.set_getElem_self hi

variable {host user rootPath} in
/-- C95: without the bytes and the accept loop the program is the process of Ufs/Threads.lean: what is proved of its
runs (C79, C80, C81) holds of the program. -/
theorem C95_threads {w0 : ω} {ls : List (DLabel ω H)} {d : Daemon ω H} (hr : DRun host user rootPath w0 ls d) :
    TRun host user rootPath w0 (ls.flatMap DLabel.threads) d.threads := by
  induction hr with
  | fails e => exact .init
  | init => exact .init
  | @step ls d l d' _ _ hs ih =>
    rw [List.flatMap_append]
    have thr {i : Nat} {c : PConn H} (h : d.conns[i]? = some c) : d.threads.thr[i]? = some c.thr := by
      simp [Daemon.threads, h]
    have same {i : Nat} {c c' : PConn H} (h : d.conns[i]? = some c) (h' : c'.thr = c.thr) :
        ({ world := d.world, thr := (d.conns.set i c').map (·.thr) } : TProc ω H) = d.threads := by
      unfold Daemon.threads
      rw [List.map_set, h', set_self (by simp [h])]
    have quiet {i : Nat} {c c' : PConn H} (h : d.conns[i]? = some c) (h' : c'.thr = c.thr) :
        TRun host user rootPath w0 (ls.flatMap DLabel.threads ++ [])
          { world := d.world, thr := (d.conns.set i c').map (·.thr) } := by
      rw [same h h', List.append_nil]
      exact ih
    cases hs with
    | listener l' cs _ _ _ _ =>
      have key : ∀ (n : Nat), TRun host user rootPath w0 (ls.flatMap DLabel.threads ++ List.replicate n .accept)
          { world := d.world, thr := d.conns.map (·.thr) ++ List.replicate n { obj := newObj rootPath } } := by
        intro n
        induction n with
        | zero => simpa [Daemon.threads] using ih
        | succ n ih =>
          have := ih.step .accept
          rw [List.replicate_succ', List.replicate_succ', ← List.append_assoc, ← List.append_assoc]
          exact this
      have := key cs.length
      simp only [List.flatMap_cons, List.flatMap_nil, List.append_nil, DLabel.threads, Daemon.threads, List.map_append, List.map_map]
      rw [show cs.map ((fun c : PConn H => c.thr) ∘ fun _ => ({ thr := { obj := newObj rootPath } } : PConn H)) =
        List.replicate cs.length { obj := newObj rootPath } from by
          rw [List.eq_replicate_iff]
          exact ⟨by simp, fun b hb => by obtain ⟨_, _, rfl⟩ := List.mem_map.1 hb; rfl⟩]
      exact this
    | arrive x hc _ => exact quiet hc rfl
    | fin e hc _ => exact quiet hc rfl
    | hdr x r hc _ _ _ _ => exact quiet hc rfl
    | body got x r n hc _ _ _ _ _ => exact quiet hc rfl
    | bodyEOF got n hc _ _ _ _ => exact quiet hc rfl
    | short x r hc hrd _ _ _ _ =>
      have := ih.step (.hangup (thr hc) hrd.1)
      simpa [DLabel.threads, Daemon.threads, List.map_set] using this
    | ends hc hrd _ _ _ =>
      have := ih.step (.hangup (thr hc) hrd.1)
      simpa [DLabel.threads, Daemon.threads, List.map_set] using this
    | bodyErr got n hc hrd _ _ _ =>
      have := ih.step (.hangup (thr hc) hrd.1)
      simpa [DLabel.threads, Daemon.threads, List.map_set] using this
    | start got spare hc hrd _ =>
      have := ih.step (.start (got.getD 4 0) (got.drop 5) spare (thr hc) hrd.2 hrd.1)
      simpa [DLabel.threads, Daemon.threads, List.map_set] using this
    | call hc hrun =>
      have := ih.step (.call (thr hc) hrun)
      simpa [DLabel.threads, Daemon.threads, List.map_set] using this
    | reply written hc hrun =>
      have := ih.step (.reply written (thr hc) hrun)
      simpa [DLabel.threads, Daemon.threads, List.map_set] using this
    | panic _ _ => simpa [DLabel.threads, Daemon.threads] using ih
    | fatal _ _ => simpa [DLabel.threads, Daemon.threads] using ih
    | other w =>
      have := ih.step (.other w)
      simpa [DLabel.threads, Daemon.threads] using this

/-- the calls of a connection are those it makes as a thread -/
theorem made_threads (i : Nat) (ls : List (DLabel ω H)) : made i ls = callsOf i (ls.flatMap DLabel.threads) := by
  induction ls with
  | nil => rfl
  | cons l ls ih =>
    rw [List.flatMap_cons, callsOf_append, ← ih]
    have h : made i (l :: ls) = made i [l] ++ made i ls := by simp [made]
    rw [h]
    congr 1
    cases l with
    | call j e => by_cases h : j = i <;> simp [made, DLabel.threads, callsOf, h]
    | listener n => induction n <;> simp_all [made, DLabel.threads, callsOf, List.replicate_succ]
    | _ => rfl

/-! ### what one connection has read and done -/

/-- a whole packet: as long as its size field says, and at least a header -/
def Whole (g : Bytes) : Prop := g.length = pktLen g

/-- how the bytes that have arrived were cut into packets -/
def Framing (tk : List Bytes) (c : PConn H) : Prop :=
  (c.rd = .hdr ∧ (∀ g ∈ tk, Whole g) ∧ c.all = tk.flatten ++ c.up) ∨
  (∃ got n, c.rd = .body got n ∧ (∀ g ∈ tk, Whole g) ∧ c.all = tk.flatten ++ (got ++ c.up) ∧ 7 ≤ got.length ∧
    (got.length + n = pktLen got ∨ (n = 0 ∧ got.length < pktLen got ∧ c.fin = some .eof ∧ c.up = []))) ∨
  (c.rd = .stopped ∧ (∀ g ∈ tk, Whole g) ∧ ∃ r, c.all = tk.flatten ++ r) ∨
  ((c.rd = .hdr ∨ c.rd = .stopped) ∧ ∃ pre g, tk = pre ++ [g] ∧ (∀ g ∈ pre, Whole g) ∧ c.all = tk.flatten ∧ c.up = [] ∧
    c.fin = some .eof ∧ 7 ≤ g.length ∧ g.length < pktLen g)

/-- a request that has been worked on: the packet, the bytes behind it in the buffer, the calls of the operating
system with their answers, and the reply -/
structure Job (H : Type) where
  got : Bytes
  spare : Bytes
  evs : List (Ev H)
  reply : Bytes

/-- `h` are the requests worked on since the beginning, in order, each by the code of the file server, on the state
that the one before has left -/
inductive Worked : List (Job H) → Obj H → Bool → Prop
  | nil : Worked [] (newObj rootPath) false
  | snoc {h o v o' v' b} (j : Job H) : Worked h o v →
      (pdispatch user o v ⟨[], j.got.drop 5, j.spare⟩ (j.got.getD 4 0)).Path j.evs (.ret (o', v', b)) →
      j.reply = b.bytes → Worked (h ++ [j]) o' v'

/-- what a connection has done, when it has taken the packets `tk` and made the calls `cs` -/
def Work (tk : List (Bytes × Bytes)) (cs : List (Ev H)) (c : PConn H) : Prop :=
  ∃ h evs, Worked user rootPath h c.thr.obj c.thr.Versioned ∧ cs = h.flatMap (·.evs) ++ evs ∧
    (match c.thr.running with
      | none => tk = h.map (fun j => (j.got, j.spare)) ∧ evs = [] ∧
          (c.thr.out = h.map (·.reply) ∨ (c.thr.dead = true ∧ c.rd = .stopped ∧ c.thr.out = (h.map (·.reply)).dropLast))
      | some q => c.thr.dead = false ∧ c.rd = .hdr ∧ c.thr.out = h.map (·.reply) ∧ ∃ got spare, 7 ≤ got.length ∧
          tk = h.map (fun j => (j.got, j.spare)) ++ [(got, spare)] ∧
          (pdispatch user c.thr.obj c.thr.Versioned ⟨[], got.drop 5, spare⟩ (got.getD 4 0)).Path evs q)

structure CInv (tk : List (Bytes × Bytes)) (cs : List (Ev H)) (c : PConn H) : Prop where
  frame : Framing (tk.map (·.1)) c
  work : Work user rootPath tk cs c
  /-- the loop has been left exactly if the goroutine is gone -/
  dead : c.thr.dead = true ↔ c.rd = .stopped

structure DInv (ls : List (DLabel ω H)) (conns : List (PConn H)) : Prop where
  /-- a connection that has not been accepted has done nothing -/
  none : ∀ i, conns.length ≤ i → jobs i ls = [] ∧ made i ls = []
  conn : ∀ i c, conns[i]? = some c → CInv user rootPath (jobs i ls) (made i ls) c

theorem jobs_append (i : Nat) (a b : List (DLabel ω H)) : jobs i (a ++ b) = jobs i a ++ jobs i b := by
  simp [jobs]

theorem made_append (i : Nat) (a b : List (DLabel ω H)) : made i (a ++ b) = made i a ++ made i b := by
  simp [made]

variable {user rootPath}

theorem DInv.set {ls : List (DLabel ω H)} {conns : List (PConn H)} (h : DInv user rootPath ls conns) {i : Nat} {c : PConn H}
    (hc : conns[i]? = some c) (l : DLabel ω H) (c' : PConn H)
    (hl : ∀ j, j ≠ i → jobs j [l] = [] ∧ made j [l] = [])
    (hn : CInv user rootPath (jobs i ls) (made i ls) c →
      CInv user rootPath (jobs i ls ++ jobs i [l]) (made i ls ++ made i [l]) c') :
    DInv user rootPath (ls ++ [l]) (conns.set i c') := by
  have hi := (List.getElem?_eq_some_iff.1 hc).1
  refine ⟨fun j hj => ?_, fun j x hx => ?_⟩
  · rw [List.length_set] at hj
    have h1 := h.none j hj
    have h2 := hl j (by omega)
    rw [jobs_append, made_append, h1.1, h1.2, h2.1, h2.2]
    exact ⟨rfl, rfl⟩
  · rw [jobs_append, made_append]
    rcases Nat.decEq j i with hne | rfl
    · rw [List.getElem?_set_ne (Ne.symm hne)] at hx
      have h2 := hl j hne
      rw [h2.1, h2.2, List.append_nil, List.append_nil]
      exact h.conn j x hx
    · rw [List.getElem?_set_self hi] at hx
      cases hx
      exact hn (h.conn j c hc)

/-- a step that starts no request and makes no call -/
theorem DInv.quiet {ls : List (DLabel ω H)} {conns : List (PConn H)} (h : DInv user rootPath ls conns) {i : Nat} {c : PConn H}
    (hc : conns[i]? = some c) (l : DLabel ω H) (c' : PConn H)
    (hl : ∀ j, jobs j [l] = [] ∧ made j [l] = [])
    (hn : CInv user rootPath (jobs i ls) (made i ls) c → CInv user rootPath (jobs i ls) (made i ls) c') :
    DInv user rootPath (ls ++ [l]) (conns.set i c') := by
  refine h.set hc l c' (fun j _ => hl j) fun hi => ?_
  rw [(hl i).1, (hl i).2, List.append_nil, List.append_nil]
  exact hn hi

/-- the work does not depend on the bytes -/
theorem Work.same {tk : List (Bytes × Bytes)} {cs : List (Ev H)} {c c' : PConn H} (h : Work user rootPath tk cs c) (ht : c'.thr = c.thr)
    (hr : c'.rd = c.rd) : Work user rootPath tk cs c' := by
  unfold Work at h ⊢
  rw [ht, hr]
  exact h

/-- an idle connection that is alive reads on -/
theorem Work.idle {tk : List (Bytes × Bytes)} {cs : List (Ev H)} {c c' : PConn H} (h : Work user rootPath tk cs c) (hrd : c.reading)
    (ho : c'.thr.obj = c.thr.obj) (hv : c'.thr.Versioned = c.thr.Versioned) (hou : c'.thr.out = c.thr.out)
    (hrun : c'.thr.running = none) : Work user rootPath tk cs c' := by
  obtain ⟨h, evs, hw, hcs, hm⟩ := h
  rw [hrd.1] at hm
  refine ⟨h, evs, by rw [ho, hv]; exact hw, hcs, ?_⟩
  rw [hrun, hou]
  exact ⟨hm.1, hm.2.1, .inl (hm.2.2.resolve_right fun x => by rw [hrd.2] at x; cases x.1)⟩

theorem pktLen_hdr {x : Bytes} (h : x.length = 7) : x.length + (hdrSize x - 7) = pktLen x := by
  have := hdrSize_eq (x := x) (by omega)
  rw [List.take_of_length_le (by omega)] at this
  unfold pktLen
  rw [this]
  omega

variable {host}

theorem dstep_inv {ls : List (DLabel ω H)} {d d' : Daemon ω H} {l : DLabel ω H} (h : DInv user rootPath ls d.conns)
    (hs : DStep host user rootPath d l d') : DInv user rootPath (ls ++ [l]) d'.conns := by
  have same (hl : ∀ j, jobs j [l] = [] ∧ made j [l] = []) : DInv user rootPath (ls ++ [l]) d.conns := by
    refine ⟨fun j hj => ?_, fun j x hx => ?_⟩
    · rw [jobs_append, made_append, (hl j).1, (hl j).2, (h.none j hj).1, (h.none j hj).2]
      exact ⟨rfl, rfl⟩
    · rw [jobs_append, made_append, (hl j).1, (hl j).2, List.append_nil, List.append_nil]
      exact h.conn j x hx
  cases hs with
  | listener l' cs _ _ _ _ =>
    have hl : ∀ j, jobs j [(DLabel.listener cs.length : DLabel ω H)] = [] ∧ made j [(DLabel.listener cs.length : DLabel ω H)] = [] :=
      fun j => ⟨rfl, rfl⟩
    refine ⟨fun j hj => ?_, fun j x hx => ?_⟩
    · simp only [List.length_append] at hj
      exact (same hl).none j (by omega)
    · dsimp only at hx
      rcases Nat.lt_or_ge j d.conns.length with hj | hj
      · rw [List.getElem?_append_left hj] at hx
        exact (same hl).conn j x hx
      · rw [List.getElem?_append_right hj] at hx
        have hx' := List.mem_of_getElem? hx
        obtain ⟨_, _, rfl⟩ := List.mem_map.1 hx'
        have h1 := (same hl).none j hj
        rw [h1.1, h1.2]
        exact ⟨.inl ⟨rfl, by simp, rfl⟩, ⟨[], [], .nil, rfl, rfl, rfl, .inl rfl⟩, by simp⟩
  | arrive x hc hf =>
    refine h.quiet hc _ _ (fun j => ⟨rfl, rfl⟩) fun hi => ⟨?_, hi.work.same rfl rfl, hi.dead⟩
    rcases hi.frame with ⟨h1, h2, h3⟩ | ⟨got, n, h1, h2, h3, h4, h5 | h5⟩ | ⟨h1, h2, r, h3⟩ | ⟨h1, pre, g, h2, h3, h4, h5, h6, h7⟩
    · exact .inl ⟨h1, h2, by simp [h3]⟩
    · exact .inr (.inl ⟨got, n, h1, h2, by simp [h3], h4, .inl h5⟩)
    · rw [hf] at h5; cases h5.2.2.1
    · exact .inr (.inr (.inl ⟨h1, h2, r ++ x, by simp [h3]⟩))
    · rw [hf] at h6; cases h6
  | fin e hc hf =>
    refine h.quiet hc _ _ (fun j => ⟨rfl, rfl⟩) fun hi => ⟨?_, hi.work.same rfl rfl, hi.dead⟩
    rcases hi.frame with ⟨h1, h2, h3⟩ | ⟨got, n, h1, h2, h3, h4, h5 | h5⟩ | ⟨h1, h2, r, h3⟩ | ⟨h1, pre, g, h2, h3, h4, h5, h6, h7⟩
    · exact .inl ⟨h1, h2, h3⟩
    · exact .inr (.inl ⟨got, n, h1, h2, h3, h4, .inl h5⟩)
    · rw [hf] at h5; cases h5.2.2.1
    · exact .inr (.inr (.inl ⟨h1, h2, r, h3⟩))
    · rw [hf] at h6; cases h6
  | hdr x r hc hrd hr hu hx =>
    refine h.quiet hc _ _ (fun j => ⟨rfl, rfl⟩) fun hi =>
      ⟨?_, hi.work.idle hrd rfl rfl rfl hrd.1, by simp [hrd.2]⟩
    rcases hi.frame with ⟨h1, h2, h3⟩ | ⟨got, n, h1, h2, h3, h4, h5⟩ | ⟨h1, h2, r, h3⟩ | ⟨h1, pre, g, h2, h3, h4, h5, h6, h7⟩
    · refine .inr (.inl ⟨x, _, rfl, h2, by rw [h3, hu], by omega, .inl (pktLen_hdr hx)⟩)
    · rw [hr] at h1; cases h1
    · rw [hr] at h1; cases h1
    · rw [hu] at h5
      have := congrArg List.length h5
      simp [hx] at this
  | short x r hc hrd hr hu hx hx' =>
    refine h.quiet hc _ _ (fun j => ⟨rfl, rfl⟩) fun hi => ⟨?_, hi.work.idle hrd rfl rfl rfl hrd.1, by simp⟩
    rcases hi.frame with ⟨h1, h2, h3⟩ | ⟨got, n, h1, h2, h3, h4, h5⟩ | ⟨h1, h2, r, h3⟩ | ⟨h1, pre, g, h2, h3, h4, h5, h6, h7⟩
    · exact .inr (.inr (.inl ⟨rfl, h2, _, h3⟩))
    · rw [hr] at h1; cases h1
    · rw [hr] at h1; cases h1
    · rw [hu] at h5
      have h8 := (List.append_eq_nil_iff.1 h5).1
      rw [h8] at hx
      simp at hx
  | ends hc hrd hr hu hf =>
    refine h.quiet hc _ _ (fun j => ⟨rfl, rfl⟩) fun hi => ⟨?_, hi.work.idle hrd rfl rfl rfl hrd.1, by simp⟩
    rcases hi.frame with ⟨h1, h2, h3⟩ | ⟨got, n, h1, h2, h3, h4, h5⟩ | ⟨h1, h2, r, h3⟩ | ⟨h1, pre, g, h2, h3, h4, h5, h6, h7⟩
    · exact .inr (.inr (.inl ⟨rfl, h2, _, h3⟩))
    · rw [hr] at h1; cases h1
    · rw [hr] at h1; cases h1
    · exact .inr (.inr (.inr ⟨.inr rfl, pre, g, h2, h3, h4, h5, h6, h7⟩))
  | body got x r n hc hrd hr hu hx hn =>
    refine h.quiet hc _ _ (fun j => ⟨rfl, rfl⟩) fun hi =>
      ⟨?_, hi.work.idle hrd rfl rfl rfl hrd.1, by simp [hrd.2]⟩
    rcases hi.frame with ⟨h1, h2, h3⟩ | ⟨got', n', h1, h2, h3, h4, h5⟩ | ⟨h1, h2, r, h3⟩ | ⟨h1, pre, g, h2, h3, h4, h5, h6, h7⟩
    · rw [hr] at h1; cases h1
    · rw [hr] at h1; cases h1
      refine .inr (.inl ⟨got ++ x, _, rfl, h2, by rw [h3, hu]; simp, by simp; omega, .inl ?_⟩)
      rw [pktLen_append (by omega), List.length_append]
      rcases h5 with h5 | h5
      · omega
      · omega
    · rw [hr] at h1; cases h1
    · rw [hr] at h1; rcases h1 with h1 | h1 <;> cases h1
  | bodyErr got n hc hrd hr hu hf =>
    refine h.quiet hc _ _ (fun j => ⟨rfl, rfl⟩) fun hi => ⟨?_, hi.work.idle hrd rfl rfl rfl hrd.1, by simp⟩
    rcases hi.frame with ⟨h1, h2, h3⟩ | ⟨got', n', h1, h2, h3, h4, h5⟩ | ⟨h1, h2, r, h3⟩ | ⟨h1, pre, g, h2, h3, h4, h5, h6, h7⟩
    · rw [hr] at h1; cases h1
    · exact .inr (.inr (.inl ⟨rfl, h2, _, h3⟩))
    · rw [hr] at h1; cases h1
    · rw [hr] at h1; rcases h1 with h1 | h1 <;> cases h1
  | bodyEOF got n hc hrd hr hu hf =>
    refine h.quiet hc _ _ (fun j => ⟨rfl, rfl⟩) fun hi =>
      ⟨?_, hi.work.idle hrd rfl rfl rfl hrd.1, by simp [hrd.2]⟩
    rcases hi.frame with ⟨h1, h2, h3⟩ | ⟨got', n', h1, h2, h3, h4, h5⟩ | ⟨h1, h2, r, h3⟩ | ⟨h1, pre, g, h2, h3, h4, h5, h6, h7⟩
    · rw [hr] at h1; cases h1
    · rw [hr] at h1; cases h1
      exact .inr (.inl ⟨got, 0, rfl, h2, h3, h4, .inr ⟨rfl, by omega, hf, hu⟩⟩)
    · rw [hr] at h1; cases h1
    · rw [hr] at h1; rcases h1 with h1 | h1 <;> cases h1
  | @start i c got spare hc hrd hr =>
    refine h.set hc _ _ (fun j hj => ⟨by simp [jobs, Ne.symm hj], rfl⟩) fun hi => ?_
    rw [show jobs i [(DLabel.start i got spare : DLabel ω H)] = [(got, spare)] by simp [jobs], show made i [(DLabel.start i got spare : DLabel ω H)] = [] from rfl,
      List.append_nil]
    have key : 7 ≤ got.length ∧ Framing ((jobs i ls ++ [(got, spare)]).map (·.1)) { c with
        rd := .hdr
        thr := { c.thr with running := some (pdispatch user c.thr.obj c.thr.Versioned ⟨[], got.drop 5, spare⟩ (got.getD 4 0)) } } := by
      rcases hi.frame with ⟨h1, h2, h3⟩ | ⟨got', n', h1, h2, h3, h4, h5⟩ | ⟨h1, h2, r, h3⟩ | ⟨h1, pre, g, h2, h3, h4, h5, h6, h7⟩
      · rw [hr] at h1; cases h1
      · rw [hr] at h1; cases h1
        refine ⟨h4, ?_⟩
        rcases h5 with h5 | ⟨-, h5, h6, h7⟩
        · refine .inl ⟨rfl, ?_, by simp [h3]⟩
          intro g hg
          rw [List.map_append] at hg
          rcases List.mem_append.1 hg with hg | hg
          · exact h2 g hg
          · rw [List.mem_singleton.1 hg]; exact h5
        · exact .inr (.inr (.inr ⟨.inl rfl, _, got, List.map_append, h2, by simp [h3, h7], h7, h6, h4, h5⟩))
      · rw [hr] at h1; cases h1
      · rw [hr] at h1; rcases h1 with h1 | h1 <;> cases h1
    refine ⟨key.2, ?_, by simp [hrd.2]⟩
    obtain ⟨hh, evs, hw, hcs, hm⟩ := hi.work
    rw [hrd.1] at hm
    obtain ⟨hm1, rfl, hm2⟩ := hm
    have hout : c.thr.out = hh.map (·.reply) := hm2.resolve_right fun x => by rw [hrd.2] at x; cases x.1
    exact ⟨hh, [], hw, hcs, hrd.2, rfl, hout, got, spare, key.1, by rw [hm1], .nil⟩
  | @call i c x k hc hrun =>
    refine h.set hc _ _ (fun j hj => ⟨rfl, by simp [made, Ne.symm hj]⟩) fun hi => ?_
    rw [show made i [(DLabel.call i ⟨x, (host.exec x d.world).2⟩ : DLabel ω H)] = [⟨x, (host.exec x d.world).2⟩] by simp [made],
      show jobs i [(DLabel.call i ⟨x, (host.exec x d.world).2⟩ : DLabel ω H)] = [] from rfl, List.append_nil]
    obtain ⟨hh, evs, hw, hcs, hm⟩ := hi.work
    rw [hrun] at hm
    obtain ⟨hm1, hm2, hm3, got, spare, h7, htk, hp⟩ := hm
    refine ⟨?_, ⟨hh, evs ++ [⟨x, _⟩], hw, by rw [hcs, List.append_assoc], hm1, hm2, hm3, got, spare, h7, htk, hp.snoc _⟩, hi.dead⟩
    exact hi.frame
  | @reply i c o v b written hc hrun =>
    refine h.quiet hc _ _ (fun j => ⟨rfl, rfl⟩) fun hi => ?_
    obtain ⟨hh, evs, hw, hcs, hm⟩ := hi.work
    rw [hrun] at hm
    obtain ⟨hm1, hm2, hm3, got, spare, h7, htk, hp⟩ := hm
    have hw' := hw.snoc ⟨got, spare, evs, b.bytes⟩ hp rfl
    have hfr : Framing ((jobs i ls).map (·.1)) { c with
        rd := if written = true then .hdr else .stopped
        thr := c.thr.replied o v b written } := by
      rcases hi.frame with ⟨h1, h2, h3⟩ | ⟨got', n', h1, h2, h3, h4, h5⟩ | ⟨h1, h2, r, h3⟩ | ⟨h1, pre, g, h2, h3, h4, h5, h6, h7⟩
      · cases written with
        | true => exact .inl ⟨rfl, h2, h3⟩
        | false => exact .inr (.inr (.inl ⟨rfl, h2, _, h3⟩))
      · rw [hm2] at h1; cases h1
      · rw [hm2] at h1; cases h1
      · exact .inr (.inr (.inr ⟨by cases written <;> simp, pre, g, h2, h3, h4, h5, h6, h7⟩))
    refine ⟨hfr, ⟨hh ++ [⟨got, spare, evs, b.bytes⟩], [], ?_, ?_, ?_⟩, ?_⟩
    · cases written <;> exact hw'
    · rw [hcs]; simp
    · cases written with
      | true => exact ⟨by rw [htk]; simp, rfl, .inl (by simp [Thr.replied, hm3])⟩
      | false => exact ⟨by rw [htk]; simp, rfl, .inr ⟨rfl, rfl, by simp [Thr.replied, hm3]⟩⟩
    · cases written <;> simp [Thr.replied, hm1]
  | panic _ _ => exact same fun j => ⟨rfl, rfl⟩
  | fatal _ _ => exact same fun j => ⟨rfl, rfl⟩
  | other w => exact same fun j => ⟨rfl, rfl⟩

theorem drun_inv {w0 : ω} {ls : List (DLabel ω H)} {d : Daemon ω H} (hr : DRun host user rootPath w0 ls d) :
    DInv user rootPath ls d.conns := by
  induction hr with
  | fails e => exact ⟨fun i _ => ⟨rfl, rfl⟩, fun i c h => by simp at h⟩
  | init => exact ⟨fun i _ => ⟨rfl, rfl⟩, fun i c h => by simp [Daemon.start] at h⟩
  | step _ _ hs ih => exact dstep_inv ih hs

/-! ### the packets -/

/-- type and what follows the type -/
def cutType (g : Bytes) : MType × Bytes := (g.getD 4 0, g.drop 5)

theorem frames_flatten (tk : List Bytes) (h : ∀ g ∈ tk, Whole g) (r : Bytes) :
    frames (tk.flatten ++ r) = (tk.map cutType ++ (frames r).1, (frames r).2) := by
  induction tk with
  | nil => simp
  | cons g tk ih =>
    have hg : g.length = pktLen g := h g (by simp)
    rw [List.flatten_cons, List.append_assoc, frames_append hg, ih fun x hx => h x (by simp [hx])]
    simp [cutType]

theorem readable_flatten (tk : List Bytes) (h : ∀ g ∈ tk, Whole g) (fin : StreamEnd) (r : Bytes) :
    readable fin (tk.flatten ++ r) = (tk.map cutType ++ (readable fin r).1, (readable fin r).2) := by
  unfold readable
  rw [frames_flatten tk h]
  dsimp only
  by_cases h1 : (frames r).2.length < 7
  · simp [h1]
  · rw [if_neg h1, if_neg h1]
    by_cases h2 : fin = .error
    · simp [h2]
    · simp [h2]

/-- C95: the goroutine of a connection works on the packets that its peer has sent, in order, none left out and none
twice: the packets taken so far are the first of those that can be read from the bytes that have arrived (the whole
packets, and one that the end of file has cut off behind its header); and when it has read all bytes and waits for
the next packet, they are all of them. -/
theorem C95_packets {w0 : ω} {ls : List (DLabel ω H)} {d : Daemon ω H} (hr : DRun host user rootPath w0 ls d)
    {i : Nat} {c : PConn H} (hc : d.conns[i]? = some c) :
    (taken i ls).map cutType <+: (readable (c.fin.getD .error) c.all).1 ∧
    (c.rd = .hdr → c.up = [] → (taken i ls).map cutType = (readable (c.fin.getD .error) c.all).1) := by
  have short : ∀ (fin : StreamEnd), readable fin [] = ([], .header) := fun fin => readable_short (by simp)
  rcases (drun_inv hr).conn i c hc |>.frame with ⟨h1, h2, h3⟩ | ⟨got', n', h1, h2, h3, h4, h5⟩ | ⟨h1, h2, r, h3⟩ | ⟨h1, pre, g, h2, h3, h4, h5, h6, h7, h8⟩
  · rw [h3, readable_flatten _ h2]
    exact ⟨List.prefix_append _ _, fun _ hu => by rw [hu, short]; simp [taken]⟩
  · rw [h3, readable_flatten _ h2]
    exact ⟨List.prefix_append _ _, fun hh => by rw [hh] at h1; cases h1⟩
  · rw [h3, readable_flatten _ h2]
    exact ⟨List.prefix_append _ _, fun hh => by rw [hh] at h1; cases h1⟩
  · have key : (taken i ls).map cutType = (readable (c.fin.getD .error) c.all).1 := by
      rw [h6, h4, taken, h2, List.flatten_append, readable_flatten _ h3]
      simp only [Option.getD_some, List.flatten_cons, List.flatten_nil, List.append_nil]
      rw [readable_eof h8 h7]
      simp [cutType]
    exact ⟨key ▸ List.prefix_rfl, fun _ _ => key⟩

/-! ### the work -/

theorem into_obj (o : Obj H) (w : ω) : (o.into w).obj = o := rfl

theorem dispatch_negotiated {σ : Type} (ns : NineServer σ) (m : TMsg) (x : σ) (v : Bool) (b : Buffer)
    (h : v = true ∨ m.ty = MT.Tversion) : dispatch ns ⟨x, v⟩ b m.ty = dispatch ns ⟨x, true⟩ b m.ty := by
  rw [dispatch_request ns m ⟨x, v⟩ b h, dispatch_request ns m ⟨x, true⟩ b (.inl rfl)]

theorem answers_snoc {σ : Type} (ns : NineServer σ) (reqs : List (Tag × TMsg)) (t : Tag) (m : TMsg) (s s' s'' : σ) (ps : List Bytes) (p : Bytes)
    (h : answers ns reqs s = some (s', ps)) (ha : answer ns t m s' = some (s'', p)) :
    answers ns (reqs ++ [(t, m)]) s = some (s'', ps ++ [p]) := by
  induction reqs generalizing s ps with
  | nil =>
    simp only [answers, Option.some.injEq, Prod.mk.injEq] at h
    obtain ⟨rfl, rfl⟩ := h
    simp [answers, ha]
  | cons r reqs ih =>
    simp only [answers, List.cons_append] at h ⊢
    cases h1 : answer ns r.1 r.2 s with
    | none => simp [h1] at h
    | some x =>
      rw [h1] at h
      dsimp only at h ⊢
      cases h2 : answers ns reqs x.1 with
      | none => simp [h2] at h
      | some y =>
        rw [h2] at h
        simp only [Option.some.injEq, Prod.mk.injEq] at h
        obtain ⟨h3, rfl⟩ := h
        rw [ih x.1 y.2 (by rw [h2, ← h3])]
        simp

theorem worked_answers {h : List (Job H)} {o : Obj H} {v : Bool} (hw : Worked user rootPath h o v) (reqs : List (Tag × TMsg))
    (hg : h.map (·.got) = reqs.map fun r => r.2.packet r.1)
    (hf : ∀ r ∈ reqs, r.2.Fits ∧ (r.2.packet r.1).length < 2 ^ 32)
    (hv : ∀ r, reqs.head? = some r → r.2.ty = MT.Tversion) (rest : List (Ev H)) :
    (reqs ≠ [] → v = true) ∧
    answers (ufs (scripted H) user) reqs (newFS rootPath ⟨h.flatMap (·.evs) ++ rest, []⟩) =
      some (o.into ⟨rest, h.flatMap (·.evs)⟩, h.map (·.reply)) := by
  induction hw generalizing reqs rest with
  | nil =>
    have : reqs = [] := by simpa using hg.symm
    subst this
    exact ⟨fun x => absurd rfl x, rfl⟩
  | @snoc h o v o' v' b j hw hp hrep ih =>
    rcases List.eq_nil_or_concat reqs with rfl | ⟨reqs', ⟨t, m⟩, rfl⟩
    · simp at hg
    · simp only [List.concat_eq_append] at *
      simp only [List.map_append, List.map_cons, List.map_nil] at hg
      obtain ⟨hg1, hg2⟩ := List.append_inj' hg rfl
      simp only [List.cons.injEq, and_true] at hg2
      obtain ⟨hmf, hml⟩ := hf (t, m) (by simp)
      obtain ⟨ih1, ih2⟩ := ih reqs' hg1 (fun r hr => hf r (by simp [hr]))
        (fun r hr => hv r (by cases reqs' <;> simp_all)) (j.evs ++ rest)
      have hvv : v = true ∨ m.ty = MT.Tversion := by
        by_cases he : reqs' = []
        · exact .inr (hv (t, m) (by simp [he]))
        · exact .inl (ih1 he)
      have hd := run_dispatch (scripted H) user (o.into ⟨j.evs ++ rest, h.flatMap (·.evs)⟩) v ⟨[], j.got.drop 5, j.spare⟩ (j.got.getD 4 0)
      rw [into_obj, show (o.into (⟨j.evs ++ rest, h.flatMap (·.evs)⟩ : Script H)).world = ⟨j.evs ++ rest, h.flatMap (·.evs)⟩ from rfl,
        hp.replay rfl] at hd
      have hty := (packet_framing m t hml).2.1
      rw [hg2, hty, dispatch_negotiated _ m _ v _ hvv, ← hty] at hd
      obtain ⟨h1, h2⟩ := Client.serve_answer hmf hml rfl hd
      have ha : answer (ufs (scripted H) user) t m (o.into ⟨j.evs ++ rest, h.flatMap (·.evs)⟩) =
          some (o'.into ⟨rest, h.flatMap (·.evs) ++ j.evs⟩, j.reply) := by
        unfold answer
        rcases h2 with ⟨r, hc, hb⟩ | ⟨e, hc, hb⟩
        · dsimp only at hc; rw [hc, hrep, hb]
        · dsimp only at hc; rw [hc, hrep, hb]
      refine ⟨fun _ => h1, ?_⟩
      have := answers_snoc _ reqs' t m _ _ _ _ _ ih2 ha
      simpa using this

/-- lists of whole packets are equal as far as their bytes are -/
theorem whole_prefix (tk ps : List Bytes) (h1 : ∀ g ∈ tk, Whole g) (h2 : ∀ g ∈ ps, Whole g) (h : tk.flatten <+: ps.flatten) :
    tk = ps.take tk.length := by
  induction tk generalizing ps with
  | nil => rfl
  | cons g tk ih =>
    have hg : g.length = pktLen g := h1 g (by simp)
    have hg7 := pktLen_ge g
    cases ps with
    | nil =>
      have := h.length_le
      simp only [List.flatten_cons, List.length_append, List.flatten_nil, List.length_nil] at this
      omega
    | cons p ps =>
      have hp : p.length = pktLen p := h2 p (by simp)
      have hp7 := pktLen_ge p
      obtain ⟨r, hr⟩ := h
      simp only [List.flatten_cons, List.append_assoc] at hr
      have : pktLen g = pktLen p := by
        rw [← pktLen_append (x := g) (by omega), hr, pktLen_append (by omega)]
      obtain ⟨h3, h4⟩ := List.append_inj hr (by omega)
      subst h3
      rw [List.length_cons, List.take_succ_cons, ← ih ps (fun x hx => h1 x (by simp [hx])) (fun x hx => h2 x (by simp [hx])) ⟨r, h4⟩]

theorem path_deadly {o : Obj H} {v : Bool} {body spare : Bytes} {t : MType} (hb : 2 ≤ body.length) {evs : List (Ev H)} {q : Prog H (Served H)}
    (hp : (pdispatch user o v ⟨[], body, spare⟩ t).Path evs q) :
    (q = .panic → (v = true ∨ t = MT.Tversion) ∧ Deadly o.files t body spare) ∧
    (∀ r, q = .ret r → ¬ ((v = true ∨ t = MT.Tversion) ∧ Deadly o.files t body spare)) := by
  have hd := run_dispatch (scripted H) user (o.into ⟨evs, []⟩) v ⟨[], body, spare⟩ t
  have hk := dispatch_deadly (scripted H) user (o.into ⟨evs, []⟩) v t body spare hb
  rw [into_obj, show (o.into (⟨evs, []⟩ : Script H)).world = ⟨evs, []⟩ from rfl] at hd
  refine ⟨fun hq => ?_, fun r hq h => ?_⟩
  · rw [hp.replay_panic hq] at hd
    exact hk.1 hd
  · have := hp.replay hq [] []
    rw [List.append_nil] at this
    rw [this] at hd
    rw [hk.2 h] at hd
    cases hd

/-- a client that sends requests and does not close the connection within one: the packets taken are its first ones -/
theorem taken_requests {w0 : ω} {ls : List (DLabel ω H)} {d : Daemon ω H} (hr : DRun host user rootPath w0 ls d)
    {i : Nat} {c : PConn H} (hc : d.conns[i]? = some c) (reqs : List (Tag × TMsg))
    (hf : ∀ r ∈ reqs, r.2.Fits ∧ (r.2.packet r.1).length < 2 ^ 32)
    (hb : c.all <+: (reqs.map fun r => r.2.packet r.1).flatten)
    (he : c.fin = some .eof → c.all = (reqs.map fun r => r.2.packet r.1).flatten) :
    (taken i ls).length ≤ reqs.length ∧ taken i ls = (reqs.take (taken i ls).length).map (fun r => r.2.packet r.1) ∧
    (c.rd = .hdr → c.up = [] → c.all = (reqs.map fun r => r.2.packet r.1).flatten → (taken i ls).length = reqs.length) := by
  have hi := (drun_inv hr).conn i c hc
  have hps : ∀ g ∈ reqs.map (fun r => r.2.packet r.1), Whole g := by
    intro g hg
    obtain ⟨r, hr, rfl⟩ := List.mem_map.1 hg
    exact (packet_framing r.2 r.1 (hf r hr).2).1
  have hwhole : (∀ g ∈ taken i ls, Whole g) ∧ (∃ r, c.all = (taken i ls).flatten ++ r) ∧
      (c.rd = .hdr → c.up = [] → c.all = (taken i ls).flatten) := by
    rcases hi.frame with ⟨h1, h2, h3⟩ | ⟨got', n', h1, h2, h3, h4, h5⟩ | ⟨h1, h2, r, h3⟩ | ⟨h1, pre, g, h2, h3, h4, h5, h6, h7, h8⟩
    · exact ⟨h2, ⟨_, h3⟩, fun _ hu => by rw [h3, hu, List.append_nil]; rfl⟩
    · exact ⟨h2, ⟨_, h3⟩, fun hh => by rw [hh] at h1; cases h1⟩
    · exact ⟨h2, ⟨_, h3⟩, fun hh => by rw [hh] at h1; cases h1⟩
    · exfalso
      have h9 := he h6
      rw [h4, h2, List.flatten_append] at h9
      simp only [List.flatten_cons, List.flatten_nil, List.append_nil] at h9
      have h10 := whole_prefix pre _ h3 hps ⟨g, h9⟩
      have h11 : (reqs.map fun r => r.2.packet r.1) = pre ++ (reqs.map fun r => r.2.packet r.1).drop pre.length := by
        conv => lhs; rw [← List.take_append_drop pre.length (reqs.map fun r => r.2.packet r.1), ← h10]
      rw [h11, List.flatten_append] at h9
      have h12 := List.append_cancel_left h9
      cases h13 : (reqs.map fun r => r.2.packet r.1).drop pre.length with
      | nil =>
        rw [h13] at h12
        simp only [List.flatten_nil] at h12
        rw [h12] at h7
        simp at h7
      | cons p ps =>
        rw [h13, List.flatten_cons] at h12
        have hp : p.length = pktLen p := hps p (List.mem_of_mem_drop (by rw [h13]; simp))
        have hp7 := pktLen_ge p
        have : pktLen g = pktLen p := by rw [h12, pktLen_append (by omega)]
        have hl := congrArg List.length h12
        rw [List.length_append] at hl
        omega
  obtain ⟨hw1, ⟨r, hw2⟩, hw3⟩ := hwhole
  have htk := whole_prefix (taken i ls) _ hw1 hps ((List.prefix_append _ _).trans (hw2 ▸ hb))
  rw [← List.map_take] at htk
  have hlen : (taken i ls).length ≤ reqs.length := by
    have := congrArg List.length htk
    simp at this
    omega
  refine ⟨hlen, htk, fun h1 h2 h3 => ?_⟩
  have h4 := hw3 h1 h2
  rw [h3] at h4
  have h5 := whole_prefix _ (taken i ls) hps hw1 ⟨[], by rw [List.append_nil]; exact h4⟩
  have := congrArg List.length h5
  simp at this
  omega

/-- C95: a client that sends requests, the first a Tversion, and does not close the connection within one, is served
as the file server answers these requests one after the other: with the answers of the operating system as they were
(`made`), the requests the server has worked on get the replies `outs` and leave exactly the table of fids that
`outs` was computed with; the server has written all of these replies, but for the last one if writing it has failed.
When the bytes have all been read, all requests have been worked on. -/
theorem C95_requests {w0 : ω} {ls : List (DLabel ω H)} {d : Daemon ω H} (hr : DRun host user rootPath w0 ls d)
    {i : Nat} {c : PConn H} (hc : d.conns[i]? = some c) (hrun : c.thr.running = none) (reqs : List (Tag × TMsg))
    (hf : ∀ r ∈ reqs, r.2.Fits ∧ (r.2.packet r.1).length < 2 ^ 32) (hv : ∀ r, reqs.head? = some r → r.2.ty = MT.Tversion)
    (hb : c.all <+: (reqs.map fun r => r.2.packet r.1).flatten)
    (he : c.fin = some .eof → c.all = (reqs.map fun r => r.2.packet r.1).flatten) :
    ∃ k outs, k ≤ reqs.length ∧ taken i ls = (reqs.take k).map (fun r => r.2.packet r.1) ∧
      answers (ufs (scripted H) user) (reqs.take k) (newFS rootPath ⟨made i ls, []⟩) =
        some (c.thr.obj.into ⟨[], made i ls⟩, outs) ∧
      (c.thr.out = outs ∨ (c.thr.dead = true ∧ c.thr.out = outs.dropLast)) ∧
      (c.rd = .hdr → c.up = [] → c.all = (reqs.map fun r => r.2.packet r.1).flatten → k = reqs.length) := by
  obtain ⟨hlen, htk, hall⟩ := taken_requests hr hc reqs hf hb he
  have hi := (drun_inv hr).conn i c hc
  obtain ⟨h, evs, hw, hcs, hm⟩ := hi.work
  rw [hrun] at hm
  obtain ⟨hm1, rfl, hm2⟩ := hm
  have hgot : h.map (·.got) = taken i ls := by rw [taken, hm1]; simp
  rw [List.append_nil] at hcs
  have hans := (worked_answers hw (reqs.take (taken i ls).length) (hgot.trans htk)
    (fun r hr => hf r (List.mem_of_mem_take hr))
    (fun r hr => hv r (by
      cases reqs with
      | nil => simp at hr
      | cons x xs =>
        cases hn : (taken i ls).length with
        | zero => rw [hn] at hr; simp at hr
        | succ n => rw [hn] at hr; simpa using hr)) []).2
  rw [List.append_nil, ← hcs] at hans
  exact ⟨(taken i ls).length, h.map (·.reply), hlen, htk, hans, hm2.imp id fun x => ⟨x.1, x.2.2⟩, hall⟩

/-! ### the end of the program -/

/-- C95: every accepted connection has one goroutine, and the accept loop is that of Server/Listener.lean (C63). -/
theorem C95_accepts {w0 : ω} {ls : List (DLabel ω H)} {d : Daemon ω H} (hr : DRun host user rootPath w0 ls d) :
    Listen.Reachable d.lst ∧ d.conns.length = d.lst.conns.length := by
  induction hr with
  | fails e => exact ⟨.init, rfl⟩
  | init => exact ⟨.step .init (.call {} 0), rfl⟩
  | @step ls d l d' _ _ hs ih =>
    cases hs with
    | listener l' cs hst _ _ hcs => exact ⟨.step ih.1 hst, by simp [hcs, ih.2]⟩
    | other w => exact ih
    | panic _ _ => exact ih
    | fatal _ _ => exact ih
    | _ => exact ⟨ih.1, by simp [ih.2]⟩

/-- the one call of `Serve`, and who has closed the socket -/
theorem socket_inv {w0 : ω} {ls : List (DLabel ω H)} {d : Daemon ω H} (hr : DRun host user rootPath w0 ls d) :
    (d.lst.calls = [] ∧ d.lst.closes = []) ∨ ∃ c, d.lst.calls = [c] ∧ c.ln = 0 ∧
      ((d.lst.closes = [] ∧ ∀ e, c.pc ≠ .returned e) ∨ (d.lst.closes = [(0, .serve 0)] ∧ ∃ e, c.pc = .returned e)) := by
  induction hr with
  | fails e => exact .inl ⟨rfl, rfl⟩
  | init => exact .inr ⟨_, rfl, rfl, .inl ⟨rfl, nofun⟩⟩
  | @step ls d l d' _ _ hs ih =>
    cases hs with
    | listener l' cs hst hlen hres _ =>
      have one {i : Nat} {c : Listen.Serving} (hc : d.lst.calls[i]? = some c) : i = 0 ∧ d.lst.calls = [c] ∧ c.ln = 0 ∧
          ((d.lst.closes = [] ∧ ∀ e, c.pc ≠ .returned e) ∨ (d.lst.closes = [(0, .serve 0)] ∧ ∃ e, c.pc = .returned e)) := by
        rcases ih with ⟨h, -⟩ | ⟨c', h, h1, h2⟩
        · rw [h] at hc; simp at hc
        · rw [h] at hc
          have hi := (List.getElem?_eq_some_iff.1 hc).1
          have hi : i = 0 := by simpa using hi
          subst hi
          cases hc
          exact ⟨rfl, h, h1, h2⟩
      cases hst with
      | call ln => simp at hlen
      | track i c hc hpc =>
        obtain ⟨rfl, h1, h2, h3⟩ := one hc
        refine .inr ⟨{ c with pc := .accepting 0 }, by simp [Listen.Sys.upd, h1], h2, ?_⟩
        rcases h3 with ⟨h3, h4⟩ | ⟨h3, e, h4⟩
        · exact .inl ⟨h3, nofun⟩
        · rw [h4] at hpc; cases hpc
      | accept i c dl a hc hpc =>
        obtain ⟨rfl, h1, h2, h3⟩ := one hc
        refine .inr ⟨{ c with pc := (Listen.acceptReturns dl a).1, seen := c.seen ++ [a], slept := c.slept ++ (Listen.acceptReturns dl a).2.1 },
          by simp [Listen.Sys.upd, h1], h2, ?_⟩
        rcases h3 with ⟨h3, h4⟩ | ⟨h3, e, h4⟩
        · exact .inl ⟨h3, by cases a <;> simp [Listen.acceptReturns]⟩
        · rw [h4] at hpc; cases hpc
      | wake i c dl hc hpc =>
        obtain ⟨rfl, h1, h2, h3⟩ := one hc
        refine .inr ⟨{ c with pc := .accepting dl }, by simp [Listen.Sys.upd, h1], h2, ?_⟩
        rcases h3 with ⟨h3, h4⟩ | ⟨h3, e, h4⟩
        · exact .inl ⟨h3, nofun⟩
        · rw [h4] at hpc; cases hpc
      | untrack i c e hc hpc =>
        obtain ⟨rfl, h1, h2, h3⟩ := one hc
        refine .inr ⟨{ c with pc := .closing e }, by simp [Listen.Sys.upd, h1], h2, ?_⟩
        rcases h3 with ⟨h3, h4⟩ | ⟨h3, e', h4⟩
        · exact .inl ⟨h3, nofun⟩
        · rw [h4] at hpc; cases hpc
      | close i c e hc hpc =>
        obtain ⟨rfl, h1, h2, h3⟩ := one hc
        refine .inr ⟨{ c with pc := .returned e }, by simp [Listen.Sys.upd, h1], h2, ?_⟩
        rcases h3 with ⟨h3, h4⟩ | ⟨h3, e', h4⟩
        · exact .inr ⟨by simp [Listen.Sys.upd, h3, h2], e, rfl⟩
        · rw [h4] at hpc; cases hpc
      | shutdown close order _ => simp at hres
    | _ => exact ih

/-- C95: the program listens as long as it runs: its socket is closed by nobody but `Serve`, once, and then `Serve` has
returned with a permanent error of `Accept`, so that the program ends. -/
theorem C95_listens {w0 : ω} {ls : List (DLabel ω H)} {d : Daemon ω H} (hr : DRun host user rootPath w0 ls d) :
    d.lst.closes = [] ∨ (d.lst.closes = [(0, .serve 0)] ∧
      ∃ c e l, d.lst.calls = [c] ∧ c.pc = .returned e ∧ c.seen = l ++ [.permanent e] ∧ ∀ a ∈ l, a.goesOn) := by
  rcases socket_inv hr with ⟨-, h⟩ | ⟨c, h1, -, ⟨h, -⟩ | ⟨h, e, h2⟩⟩
  · exact .inl h
  · exact .inl h
  · obtain ⟨l, h3, h4⟩ := (Listen.C63_backoff (C95_accepts hr).1 (c := c) (by rw [h1]; simp)).2.2.1 e h2
    exact .inr ⟨h, c, e, l, h1, h2, h3, h4⟩

/-- C95: how the program ends.  Only in these three ways: it cannot listen at all, and then it has done nothing;
`Accept` has returned a permanent error, and it is that error it ends with; or a goroutine has panicked, and then
the last packet that connection has sent is one of the deadly ones of `Deadly`, for the fids the connection has, with
Tversion sent.  Errors of the operating system, malformed packets and lost connections never end it. -/
theorem C95_ends {w0 : ω} {ls : List (DLabel ω H)} {d : Daemon ω H} (hr : DRun host user rootPath w0 ls d) :
    (∀ e, d.exit = some (.listen e) → ls = []) ∧
    (∀ e, d.exit = some (.served e) → ∃ c l, d.lst.calls[0]? = some c ∧ c.seen = l ++ [.permanent e] ∧ ∀ a ∈ l, a.goesOn) ∧
    (∀ i, d.exit = some (.panic i) → ∃ c pre got spare, d.conns[i]? = some c ∧ jobs i ls = pre ++ [(got, spare)] ∧
      c.thr.running = some .panic ∧ (c.thr.Versioned = true ∨ got.getD 4 0 = MT.Tversion) ∧
      Deadly c.thr.obj.files (got.getD 4 0) (got.drop 5) spare) := by
  induction hr with
  | fails e => exact ⟨fun _ _ => rfl, fun _ h => by simp at h, fun _ h => by simp at h⟩
  | init => exact ⟨fun _ _ => rfl, fun _ h => by simp [Daemon.start] at h, fun _ h => by simp [Daemon.start] at h⟩
  | @step ls d l d' hr hn hs _ =>
    have hinv := drun_inv hr
    have hlis := C95_accepts hr
    have none (h : d'.exit = d.exit) : (∀ e, d'.exit = some (.listen e) → ls ++ [l] = []) ∧
        (∀ e, d'.exit = some (.served e) → ∃ c l, d'.lst.calls[0]? = some c ∧ c.seen = l ++ [.permanent e] ∧ ∀ a ∈ l, a.goesOn) ∧
        (∀ i, d'.exit = some (.panic i) → ∃ c pre got spare, d'.conns[i]? = some c ∧ jobs i (ls ++ [l]) = pre ++ [(got, spare)] ∧
          c.thr.running = some .panic ∧ (c.thr.Versioned = true ∨ got.getD 4 0 = MT.Tversion) ∧
          Deadly c.thr.obj.files (got.getD 4 0) (got.drop 5) spare) := by
      rw [h, hn]
      exact ⟨fun _ h => by simp at h, fun _ h => by simp at h, fun _ h => by simp at h⟩
    cases hs with
    | @panic i c hc hrun =>
      refine ⟨fun _ h => by simp at h, fun _ h => by simp at h, fun j h => ?_⟩
      simp only [Option.some.injEq, Exit.panic.injEq] at h
      subst h
      obtain ⟨hh, evs, hw, hcs, hm⟩ := (hinv.conn i c hc).work
      rw [hrun] at hm
      obtain ⟨hm1, hm2, hm3, got, spare, h7, htk, hp⟩ := hm
      have := (path_deadly (by simp; omega) hp).1 rfl
      refine ⟨c, hh.map (fun j => (j.got, j.spare)), got, spare, hc, ?_, hrun, this.1, this.2⟩
      rw [jobs_append, show jobs i [(DLabel.panic i : DLabel ω H)] = [] from rfl, List.append_nil, htk]
    | @fatal c e hc hpc =>
      refine ⟨fun _ h => by simp at h, fun e' h => ?_, fun _ h => by simp at h⟩
      simp only [Option.some.injEq, Exit.served.injEq] at h
      subst h
      obtain ⟨l, h1, h2⟩ := (Listen.C63_backoff hlis.1 (List.mem_of_getElem? hc)).2.2.1 e hpc
      exact ⟨c, l, hc, h1, h2⟩
    | _ => exact none rfl

theorem worked_prefix {h1 h2 : List (Job H)} {o : Obj H} {v : Bool} (hw : Worked user rootPath (h1 ++ h2) o v) :
    ∃ o v, Worked user rootPath h1 o v := by
  generalize hh : h1 ++ h2 = h at hw
  induction hw generalizing h2 with
  | nil => obtain ⟨rfl, rfl⟩ := List.append_eq_nil_iff.1 hh; exact ⟨_, _, .nil⟩
  | snoc j hw hp hrep ih =>
    rcases List.eq_nil_or_concat h2 with rfl | ⟨h3, x, rfl⟩
    · rw [List.append_nil] at hh
      subst hh
      exact ⟨_, _, .snoc j hw hp hrep⟩
    · rw [List.concat_eq_append, ← List.append_assoc] at hh
      exact ih (List.append_inj' hh rfl).1

theorem worked_fine {h1 h2 : List (Job H)} {j : Job H} {o : Obj H} {v : Bool} (hw : Worked user rootPath (h1 ++ j :: h2) o v)
    (hj : 7 ≤ j.got.length) : ∃ o v, Worked user rootPath h1 o v ∧
      ¬ ((v = true ∨ j.got.getD 4 0 = MT.Tversion) ∧ Deadly o.files (j.got.getD 4 0) (j.got.drop 5) j.spare) := by
  rw [show h1 ++ j :: h2 = (h1 ++ [j]) ++ h2 by simp] at hw
  obtain ⟨o, v, hw⟩ := worked_prefix hw
  generalize hh : h1 ++ [j] = h at hw
  cases hw with
  | nil => simp at hh
  | @snoc h o v o' v' b j' hw hp hrep =>
    obtain ⟨rfl, h2⟩ := List.append_inj' hh rfl
    simp only [List.cons.injEq, and_true] at h2
    subst h2
    exact ⟨o, v, hw, (path_deadly (by simp; omega) hp).2 _ rfl⟩

theorem framing_long {tk : List Bytes} {c : PConn H} (h : Framing tk c) : ∀ g ∈ tk, 7 ≤ g.length := by
  have key {l : List Bytes} (h : ∀ g ∈ l, Whole g) : ∀ g ∈ l, 7 ≤ g.length := fun g hg => by
    have h1 : g.length = pktLen g := h g hg
    have := pktLen_ge g
    omega
  rcases h with ⟨h1, h2, h3⟩ | ⟨got', n', h1, h2, h3, h4, h5⟩ | ⟨h1, h2, r, h3⟩ | ⟨h1, pre, g, h2, h3, h4, h5, h6, h7, h8⟩
  · exact key h2
  · exact key h2
  · exact key h2
  · intro x hx
    rw [h2] at hx
    rcases List.mem_append.1 hx with hx | hx
    · exact key h3 x hx
    · rw [List.mem_singleton.1 hx]; exact h7

/-- C95: a deadly packet does end the program: no connection ever gets past one.  Every packet that a connection has
worked on, but the one it works on, was not deadly for the fids that the connection had at that time: `h` are the
requests before it, with the calls of the operating system made for them, their answers, and the replies written. -/
theorem C95_deadly {w0 : ω} {ls : List (DLabel ω H)} {d : Daemon ω H} (hr : DRun host user rootPath w0 ls d)
    {i : Nat} {c : PConn H} (hc : d.conns[i]? = some c) (pre post : List (Bytes × Bytes)) (got spare : Bytes)
    (hj : jobs i ls = pre ++ (got, spare) :: post) (hp : post ≠ [] ∨ c.thr.running = none) :
    ∃ (h : List (Job H)) (o : Obj H) (v : Bool), Worked user rootPath h o v ∧ h.map (fun j => (j.got, j.spare)) = pre ∧
      h.flatMap (fun j => j.evs) <+: made i ls ∧ h.map (fun j => j.reply) <+: c.thr.out ∧
      ¬ ((v = true ∨ got.getD 4 0 = MT.Tversion) ∧ Deadly o.files (got.getD 4 0) (got.drop 5) spare) := by
  have hi := (drun_inv hr).conn i c hc
  have h7 : 7 ≤ got.length := framing_long hi.frame got (by rw [hj]; simp)
  obtain ⟨h, evs, hw, hcs, hm⟩ := hi.work
  have key : ∃ post', h.map (fun j => (j.got, j.spare)) = pre ++ (got, spare) :: post' := by
    cases hq : c.thr.running with
    | none =>
      rw [hq] at hm
      exact ⟨post, by rw [← hm.1, hj]⟩
    | some q =>
      rw [hq] at hm hp
      have hpost := hp.resolve_right (by simp)
      obtain ⟨-, -, -, g, sp, -, htk, -⟩ := hm
      rcases List.eq_nil_or_concat post with rfl | ⟨post', x, rfl⟩
      · exact absurd rfl hpost
      · rw [hj, List.concat_eq_append, ← List.cons_append, ← List.append_assoc] at htk
        exact ⟨post', (List.append_inj' htk rfl).1.symm⟩
  obtain ⟨post', hk⟩ := key
  obtain ⟨h1, h2, rfl, e1, e2⟩ := List.map_eq_append_iff.1 hk
  obtain ⟨j, h3, rfl, e3, e4⟩ := List.map_eq_cons_iff.1 e2
  obtain ⟨o, v, hw', hn⟩ := worked_fine hw (by simp at e3; rw [e3.1]; exact h7)
  simp only [Prod.mk.injEq] at e3
  rw [e3.1, e3.2] at hn
  refine ⟨h1, o, v, hw', e1, ?_, ?_, hn⟩
  · rw [hcs, List.flatMap_append, List.append_assoc]
    exact List.prefix_append _ _
  · have hpre : h1.map (fun j => j.reply) <+: ((h1 ++ j :: h3).map (fun j => j.reply)).dropLast := by
      rw [List.map_append, List.map_cons, List.dropLast_append_of_ne_nil (by simp)]
      exact List.prefix_append _ _
    have hall := hpre.trans (List.dropLast_prefix _)
    cases hq : c.thr.running with
    | none =>
      rw [hq] at hm
      rcases hm.2.2 with h | ⟨-, -, h⟩
      · rw [h]; exact hall
      · rw [h]; exact hpre
    | some q => rw [hq] at hm; rw [hm.2.2.1]; exact hall

/-- C95: nothing but its peer can keep a connection waiting.  While the program runs, a connection that is not over
can take a step, unless it waits for bytes: it works on no request, has read everything, and its stream has not
ended. -/
theorem C95_waits {w0 : ω} {ls : List (DLabel ω H)} {d : Daemon ω H} (hr : DRun host user rootPath w0 ls d) (hn : d.exit = none)
    {i : Nat} {c : PConn H} (hc : d.conns[i]? = some c) (halive : c.thr.dead = false) :
    (∃ l d', DRun host user rootPath w0 (ls ++ [l]) d' ∧
      (l = .read i ∨ l = .hangup i ∨ (∃ got spare, l = .start i got spare) ∨ (∃ e, l = .call i e) ∨ (∃ w, l = .reply i w) ∨ l = .panic i)) ∨
    (c.thr.running = none ∧ c.up = [] ∧ c.fin = none) := by
  have hi := (drun_inv hr).conn i c hc
  have hns : c.rd ≠ .stopped := fun h => by rw [hi.dead.2 h] at halive; cases halive
  have go {l d'} (h : DStep host user rootPath d l d') := hr.step hn h
  cases hrun : c.thr.running with
  | some q =>
    left
    cases q with
    | ret x => exact ⟨_, _, go (.reply true hc hrun), .inr (.inr (.inr (.inr (.inl ⟨_, rfl⟩))))⟩
    | panic => exact ⟨_, _, go (.panic hc hrun), by simp⟩
    | call x k => exact ⟨_, _, go (.call hc hrun), .inr (.inr (.inr (.inl ⟨_, rfl⟩)))⟩
  | none =>
    have hrd : c.reading := ⟨hrun, halive⟩
    cases hx : c.rd with
    | stopped => exact absurd hx hns
    | hdr =>
      rcases Nat.lt_or_ge c.up.length 7 with h7 | h7
      · rcases Nat.eq_zero_or_pos c.up.length with h0 | h0
        · have hu : c.up = [] := List.eq_nil_of_length_eq_zero h0
          cases hf : c.fin with
          | none => exact .inr ⟨rfl, hu, rfl⟩
          | some e => exact .inl ⟨_, _, go (.ends hc hrd hx hu (by simp [hf])), .inr (.inl rfl)⟩
        · exact .inl ⟨_, _, go (.short c.up [] hc hrd hx (by simp) h0 h7), .inr (.inl rfl)⟩
      · exact .inl ⟨_, _, go (.hdr (c.up.take 7) (c.up.drop 7) hc hrd hx (by simp) (by simp; omega)), .inl rfl⟩
    | body got n =>
      cases n with
      | zero => exact .inl ⟨_, _, go (.start got [] hc hrd hx), .inr (.inr (.inl ⟨_, _, rfl⟩))⟩
      | succ n =>
        cases hu : c.up with
        | nil =>
          cases hf : c.fin with
          | none => exact .inr ⟨rfl, rfl, rfl⟩
          | some e =>
            cases e with
            | error => exact .inl ⟨_, _, go (.bodyErr got n hc hrd hx hu hf), .inr (.inl rfl)⟩
            | eof => exact .inl ⟨_, _, go (.bodyEOF got n hc hrd hx hu hf), .inl rfl⟩
        | cons a r => exact .inl ⟨_, _, go (.body got [a] r _ hc hrd hx (by simp [hu]) (by simp) (by simp)), .inl rfl⟩

/-! ### the hypotheses can be met -/

/-- a client connects -/
theorem daemon_fresh (host : Host ω H) (user rootPath : GoString) (w0 : ω) : ∃ ls d, DRun host user rootPath w0 ls d ∧ d.exit = none ∧
    jobs 0 ls = [] ∧ d.conns[0]? = some { thr := { obj := newObj rootPath } } := by
  have h1 : DRun host user rootPath w0 ([] ++ [.listener 0]) _ :=
    DRun.init.step rfl (.listener _ [] (.track _ 0 _ rfl rfl) rfl rfl rfl)
  have h2 : DRun host user rootPath w0 ([] ++ [.listener 0] ++ [.listener 1]) _ :=
    h1.step rfl (.listener _ [0] (.accept _ 0 _ 0 (.conn 0) rfl rfl) rfl rfl rfl)
  exact ⟨_, _, h2, rfl, rfl, rfl⟩

/-- a packet arrives in one piece, and the goroutine takes it -/
theorem daemon_next {host : Host ω H} {user rootPath : GoString} {w0 : ω} {ls : List (DLabel ω H)} {d : Daemon ω H}
    (hr : DRun host user rootPath w0 ls d) (hn : d.exit = none) {c : PConn H} (hc : d.conns[0]? = some c)
    (hrd : c.reading) (hh : c.rd = .hdr) (hu : c.up = []) (hf : c.fin = none) (g spare : Bytes) (hw : g.length = pktLen g) (h8 : 8 ≤ g.length) :
    ∃ ls' d', DRun host user rootPath w0 ls' d' ∧ d'.exit = none ∧ jobs 0 ls' = jobs 0 ls ++ [(g, spare)] ∧
      d'.conns[0]? = some { c with all := c.all ++ g, thr := { c.thr with
        running := some (pdispatch user c.thr.obj c.thr.Versioned ⟨[], g.drop 5, spare⟩ (g.getD 4 0)) } } := by
  obtain ⟨all, up, fin, rd, thr⟩ := c
  dsimp only at hh hu hf
  subst hh hu hf
  have hlen : (g.take 7).length = 7 := by simp; omega
  have hi : 0 < d.conns.length := (List.getElem?_eq_some_iff.1 hc).1
  have hz : hdrSize (g.take 7) - 7 = (g.drop 7).length := by
    have := pktLen_hdr hlen
    rw [← pktLen_append (y := g.drop 7) (by omega), List.take_append_drop] at this
    simp only [List.length_drop]
    omega
  have h3 := hr.step hn (.arrive g hc rfl)
  have e3 := List.getElem?_set_self (l := d.conns) (a := { all := all ++ g, up := [] ++ g, fin := none, rd := .hdr, thr := thr }) hi
  have h4 := h3.step hn (.hdr (g.take 7) (g.drop 7) e3 hrd rfl (by simp) hlen)
  have h5 := h4.step hn (.body (g.take 7) (g.drop 7) [] _ (List.getElem?_set_self (by simpa using hi)) hrd rfl (List.append_nil _).symm
    (by simp; omega) (by omega))
  have h6 := h5.step hn (.start g spare (List.getElem?_set_self (by simpa using hi)) hrd (by simp [hz]))
  refine ⟨_, _, h6, hn, ?_, List.getElem?_set_self (by simpa using hi)⟩
  simp [jobs_append, jobs]

/-- Tversion, msize 8192, "9P2000" -/
def hello : Bytes := (TMsg.version ⟨8192, [57, 80, 50, 48, 48, 48]⟩).packet 65535

/-- a run in which a Tversion has been answered -/
theorem daemon_hello (host : Host ω H) (user rootPath : GoString) (w0 : ω) : ∃ ls d c, DRun host user rootPath w0 ls d ∧ d.exit = none ∧
    d.conns[0]? = some c ∧ c.reading ∧ c.rd = .hdr ∧ c.up = [] ∧ c.fin = none ∧ c.all = hello ∧ c.thr.Versioned = true ∧
    c.thr.out.length = 1 ∧ taken 0 ls = [hello] := by
  obtain ⟨ls, d, hr, hn, hj, hc⟩ := daemon_fresh host user rootPath w0
  obtain ⟨ls, d, hr, hn, hj', hc⟩ := daemon_next hr hn hc ⟨rfl, rfl⟩ rfl rfl rfl hello [] (by decide) (by decide)
  have hlen : 0 < d.conns.length := (List.getElem?_eq_some_iff.1 hc).1
  have h2 := hr.step hn (.reply (i := 0) true hc rfl)
  refine ⟨_, _, _, h2, hn, List.getElem?_set_self hlen, ⟨rfl, rfl⟩, rfl, rfl, rfl, rfl, rfl, rfl, ?_⟩
  rw [taken, jobs_append, hj', hj]
  rfl

/-- the hypotheses of `C95_requests` -/
example (host : Host ω H) (user rootPath : GoString) (w0 : ω) : ∃ ls d c reqs, DRun host user rootPath w0 ls d ∧
    d.conns[0]? = some c ∧ c.thr.running = none ∧ c.rd = .hdr ∧ c.up = [] ∧ c.fin = none ∧
    c.all = (reqs.map fun (r : Tag × TMsg) => r.2.packet r.1).flatten ∧
    (∀ r ∈ reqs, r.2.Fits ∧ (r.2.packet r.1).length < 2 ^ 32) ∧ (∀ r, reqs.head? = some r → r.2.ty = MT.Tversion) ∧
    reqs ≠ [] := by
  obtain ⟨ls, d, c, hr, hn, hc, hrd, h1, h2, h3, h4, -⟩ := daemon_hello host user rootPath w0
  refine ⟨ls, d, c, [(65535, TMsg.version ⟨8192, [57, 80, 50, 48, 48, 48]⟩)], hr, hc, hrd.1, h1, h2, h3, ?_, ?_, ?_, by simp⟩
  · rw [h4, hello]; simp
  · intro r hr
    rw [List.mem_singleton.1 hr]
    refine ⟨?_, by decide⟩
    simp [TMsg.Fits]
  · intro r hr
    cases hr
    rfl

/-- a run that a deadly packet has ended: a Twrite whose count is larger than the packet -/
example (host : Host ω H) (user rootPath : GoString) (w0 : ω) : ∃ ls d, DRun host user rootPath w0 ls d ∧ d.exit = some (.panic 0) := by
  obtain ⟨ls, d, c, hr, hn, hc, hrd, h1, h2, h3, h4, h5, -⟩ := daemon_hello host user rootPath w0
  obtain ⟨ls, d, hr, hn, hj', hc⟩ := daemon_next hr hn hc hrd h1 h2 h3
    [23, 0, 0, 0, 118, 1, 0, 1, 0, 0, 0, 0, 0, 0, 0, 0, 0, 0, 0, 255, 255, 255, 0] [] (by decide) (by decide)
  rw [h5] at hc
  exact ⟨_, _, hr.step hn (.panic (i := 0) hc rfl), rfl⟩

end Ninep.Ufs
