import Verif.Lemmas.Logged
import Verif.Props.Process
import Verif.Props.DebugLog
import Verif.Props.UfsMore

set_option linter.unusedSimpArgs false
set_option linter.unusedVariables false

/-!
# The program ufs with the flag debug (C107)
-/

namespace Ninep.Ufs
open Spec
open Debugfs (Line Arg debugServer Transcript ReqLine RepLine)

variable {ω H : Type}

/-! ### the program without its log -/

def LThr.erase (t : LThr H) : Thr H :=
  { obj := t.obj, Versioned := t.Versioned, dead := t.dead, out := t.out, running := t.running.map LProg.erase }

def LConn.erase (c : LConn H) : PConn H := { all := c.all, up := c.up, fin := c.fin, rd := c.rd, thr := c.thr.erase }

def LDaemon.erase (d : LDaemon ω H) : Daemon ω H :=
  { lst := d.lst, conns := d.conns.map LConn.erase, world := d.world, exit := d.exit }

/-- what happens but for the log -/
def LLabel.step? : LLabel ω H → Option (DLabel ω H)
  | .step l => some l
  | .log _ _ => none

/-- what happened but for the log -/
def unlogged (ls : List (LLabel ω H)) : List (DLabel ω H) := ls.filterMap LLabel.step?

/-- the lines of the log that connection `i` has written -/
def linesOf (i : Nat) (log : List (Nat × Line)) : List Line := log.filterMap fun x => if x.1 = i then some x.2 else none

theorem unlogged_append (a b : List (LLabel ω H)) : unlogged (a ++ b) = unlogged a ++ unlogged b := by simp [unlogged]

theorem linesOf_append (i : Nat) (a b : List (Nat × Line)) : linesOf i (a ++ b) = linesOf i a ++ linesOf i b := by simp [linesOf]

theorem erase_reading {c : LConn H} : c.erase.reading ↔ c.reading := by
  simp [LConn.erase, LThr.erase, PConn.reading, LConn.reading]

theorem erase_at {d : LDaemon ω H} {i : Nat} {c : LConn H} (h : d.conns[i]? = some c) : d.erase.conns[i]? = some c.erase := by
  simp [LDaemon.erase, h]

theorem erase_at_inv {d : LDaemon ω H} {i : Nat} {c : PConn H} (h : d.erase.conns[i]? = some c) :
    ∃ c', d.conns[i]? = some c' ∧ c = c'.erase := by
  simp only [LDaemon.erase, List.getElem?_map, Option.map_eq_some_iff] at h
  obtain ⟨c', h1, h2⟩ := h
  exact ⟨c', h1, h2.symm⟩

theorem erase_set (d : LDaemon ω H) (i : Nat) (c : LConn H) :
    ({ d with conns := d.conns.set i c } : LDaemon ω H).erase = { d.erase with conns := d.erase.conns.set i c.erase } := by
  simp [LDaemon.erase, List.map_set]

theorem erase_running {c : LConn H} {q : LProg H (Served H)} (h : c.thr.running = some q) : c.erase.thr.running = some q.erase := by
  simp [LConn.erase, LThr.erase, h]

variable {host : Host ω H} {user rootPath : GoString}

/-- C107: the flag `debug` changes nothing but the log: without its lines every run of the program with the flag is a
run of the program without it; connections get the same replies, and the operating system gets the same calls in the
same order. -/
theorem C107_same {w0 : ω} {ls : List (LLabel ω H)} {d : LDaemon ω H} (hr : LRun user host rootPath w0 ls d) :
    DRun host user rootPath w0 (unlogged ls) d.erase := by
  induction hr with
  | fails e => exact .fails e
  | init => exact .init
  | @step ls d l d' _ hn hs ih =>
    rw [unlogged_append]
    have hn' : d.erase.exit = none := hn
    cases hs with
    | listener l' cs h1 h2 h3 h4 =>
      have := ih.step hn' (.listener l' cs h1 h2 h3 h4)
      simpa [LDaemon.erase, LConn.erase, LThr.erase, unlogged, LLabel.step?, Function.comp_def] using this
    | arrive x hc hf =>
      have := ih.step hn' (.arrive x (erase_at hc) hf)
      rw [erase_set]
      exact this
    | fin e hc hf =>
      have := ih.step hn' (.fin e (erase_at hc) hf)
      rw [erase_set]
      exact this
    | hdr x r hc h1 h2 h3 h4 =>
      have := ih.step hn' (.hdr x r (erase_at hc) (erase_reading.2 h1) h2 h3 h4)
      rw [erase_set]
      exact this
    | short x r hc h1 h2 h3 h4 h5 =>
      have := ih.step hn' (.short x r (erase_at hc) (erase_reading.2 h1) h2 h3 h4 h5)
      rw [erase_set]
      exact this
    | ends hc h1 h2 h3 h4 =>
      have := ih.step hn' (.ends (erase_at hc) (erase_reading.2 h1) h2 h3 h4)
      rw [erase_set]
      exact this
    | body got x r n hc h1 h2 h3 h4 h5 =>
      have := ih.step hn' (.body got x r n (erase_at hc) (erase_reading.2 h1) h2 h3 h4 h5)
      rw [erase_set]
      exact this
    | bodyErr got n hc h1 h2 h3 h4 =>
      have := ih.step hn' (.bodyErr got n (erase_at hc) (erase_reading.2 h1) h2 h3 h4)
      rw [erase_set]
      exact this
    | bodyEOF got n hc h1 h2 h3 h4 =>
      have := ih.step hn' (.bodyEOF got n (erase_at hc) (erase_reading.2 h1) h2 h3 h4)
      rw [erase_set]
      exact this
    | start got spare hc h1 h2 =>
      have := ih.step hn' (.start got spare (erase_at hc) (erase_reading.2 h1) h2)
      rw [erase_set]
      simpa [LConn.erase, LThr.erase, ldispatch_erase, unlogged, LLabel.step?] using this
    | @call i c x k hc h1 =>
      have := ih.step hn' (.call (erase_at hc) (erase_running h1))
      simpa [LDaemon.erase, LConn.erase, LThr.erase, unlogged, LLabel.step?, List.map_set] using this
    | @log i c l k hc h1 =>
      have h2 : ({ c with thr := { c.thr with running := some k } } : LConn H).erase = c.erase := by
        simp [LConn.erase, LThr.erase, h1, LProg.erase]
      have h3 : d.erase.conns.set i c.erase = d.erase.conns := set_self (erase_at hc)
      have h4 : ({ d with conns := d.conns.set i { c with thr := { c.thr with running := some k } }, log := d.log ++ [(i, l)] } : LDaemon ω H).erase
          = d.erase := by
        show ({ d with conns := d.conns.set i { c with thr := { c.thr with running := some k } } } : LDaemon ω H).erase = _
        rw [erase_set, h2, h3]
      rw [h4]
      rw [show unlogged [(LLabel.log i l : LLabel ω H)] = [] from rfl, List.append_nil]
      exact ih
    | @reply i c o v b written hc h1 =>
      have := ih.step hn' (.reply written (erase_at hc) (erase_running h1))
      rw [erase_set]
      have h2 : (c.thr.replied o v b written).erase = c.thr.erase.replied o v b written := by
        cases written <;> simp [LThr.replied, Thr.replied, LThr.erase]
      simpa [LConn.erase, h2, unlogged, LLabel.step?] using this
    | panic hc h1 => exact ih.step hn' (.panic (erase_at hc) (erase_running h1))
    | fatal hc h1 => exact ih.step hn' (.fatal hc h1)
    | other w => exact ih.step hn' (.other w)

/-- the lines a goroutine is about to write can be written -/
theorem flush_log {w0 : ω} (q : LProg H (Served H)) {ls : List (LLabel ω H)} {d : LDaemon ω H} (hr : LRun user host rootPath w0 ls d)
    (hn : d.exit = none) {i : Nat} {c : LConn H} (hc : d.conns[i]? = some c) (hq : c.thr.running = some q) :
    ∃ ls' d' c' q', LRun user host rootPath w0 ls' d' ∧ unlogged ls' = unlogged ls ∧ d'.erase = d.erase ∧ d'.conns[i]? = some c' ∧
      c'.erase = c.erase ∧ c'.thr.running = some q' ∧ q'.erase = q.erase ∧ ∀ l k, q' ≠ .log l k := by
  induction q generalizing ls d c with
  | ret a => exact ⟨ls, d, c, _, hr, rfl, rfl, hc, rfl, hq, rfl, nofun⟩
  | panic => exact ⟨ls, d, c, _, hr, rfl, rfl, hc, rfl, hq, rfl, nofun⟩
  | call x k _ => exact ⟨ls, d, c, _, hr, rfl, rfl, hc, rfl, hq, rfl, nofun⟩
  | log l k ih =>
    have h1 := hr.step hn (.log hc hq)
    have hi := (List.getElem?_eq_some_iff.1 hc).1
    have h2 : ({ c with thr := { c.thr with running := some k } } : LConn H).erase = c.erase := by
      simp [LConn.erase, LThr.erase, hq, LProg.erase]
    have h4 : ({ d with conns := d.conns.set i { c with thr := { c.thr with running := some k } }, log := d.log ++ [(i, l)] } : LDaemon ω H).erase
        = d.erase := by
      show ({ d with conns := d.conns.set i { c with thr := { c.thr with running := some k } } } : LDaemon ω H).erase = _
      rw [erase_set, h2, set_self (erase_at hc)]
    obtain ⟨ls', d', c', q', i1, i2, i3, i4, i5, i6, i7, i8⟩ := ih h1 hn (c := { c with thr := { c.thr with running := some k } })
      (by simp [List.getElem?_set_self hi]) rfl
    exact ⟨ls', d', c', q', i1, by rw [i2, unlogged_append]; simp [unlogged, LLabel.step?], i3.trans h4, i4, i5.trans h2, i6, i7, i8⟩

/-- C107: and the flag takes nothing away: every run of the program without the flag is a run with it, with the lines
of the log left out. -/
theorem C107_every {w0 : ω} {ls : List (DLabel ω H)} {d : Daemon ω H} (hr : DRun host user rootPath w0 ls d) :
    ∃ ls' d', LRun user host rootPath w0 ls' d' ∧ unlogged ls' = ls ∧ d'.erase = d := by
  induction hr with
  | fails e => exact ⟨[], _, .fails e, rfl, rfl⟩
  | init => exact ⟨[], _, .init, rfl, rfl⟩
  | @step ls d l d' _ hn hs ih =>
    obtain ⟨ls', e, hr, rfl, rfl⟩ := ih
    have hn' : e.exit = none := hn
    have fin {e' : LDaemon ω H} (h : LStep user host rootPath e (.step l) e') (he : e'.erase = d') :
        ∃ ls2 d2, LRun user host rootPath w0 ls2 d2 ∧ unlogged ls2 = unlogged ls' ++ [l] ∧ d2.erase = d' :=
      ⟨_, _, hr.step hn' h, by rw [unlogged_append]; rfl, he⟩
    -- the goroutine writes its lines first
    have late {i : Nat} {c : PConn H} {q : Prog H (Served H)} (hc : e.erase.conns[i]? = some c) (hq : c.thr.running = some q)
        (hk : ∀ (ls2 : List (LLabel ω H)) (e2 : LDaemon ω H) (c2 : LConn H) (q2 : LProg H (Served H)), e2.erase = e.erase → e2.conns[i]? = some c2 → c2.erase = c →
          c2.thr.running = some q2 → q2.erase = q → (∀ l k, q2 ≠ .log l k) → ∃ e3, LStep user host rootPath e2 (.step l) e3 ∧ e3.erase = d') :
        ∃ ls2 d2, LRun user host rootPath w0 ls2 d2 ∧ unlogged ls2 = unlogged ls' ++ [l] ∧ d2.erase = d' := by
      obtain ⟨c1, h1, rfl⟩ := erase_at_inv hc
      obtain ⟨q1, h2, h3⟩ : ∃ q1, c1.thr.running = some q1 ∧ q1.erase = q := by
        simpa [LConn.erase, LThr.erase] using hq
      obtain ⟨ls2, e2, c2, q2, i1, i2, i3, i4, i5, i6, i7, i8⟩ := flush_log q1 hr hn' h1 h2
      obtain ⟨e3, j1, j2⟩ := hk ls2 e2 c2 q2 i3 i4 i5 i6 (i7.trans h3) i8
      have hn2 : e2.exit = none := by
        have := congrArg Daemon.exit i3
        exact this.trans hn'
      exact ⟨_, _, i1.step hn2 j1, by rw [unlogged_append, i2]; rfl, j2⟩
    cases hs with
    | listener l' cs h1 h2 h3 h4 =>
      exact fin (.listener l' cs h1 h2 h3 h4) (by simp [LDaemon.erase, LConn.erase, LThr.erase, Function.comp_def])
    | arrive x hc hf =>
      obtain ⟨c', h1, rfl⟩ := erase_at_inv hc
      exact fin (.arrive x h1 hf) (by rw [erase_set]; rfl)
    | fin x hc hf =>
      obtain ⟨c', h1, rfl⟩ := erase_at_inv hc
      exact fin (.fin x h1 hf) (by rw [erase_set]; rfl)
    | hdr x r hc h1 h2 h3 h4 =>
      obtain ⟨c', h0, rfl⟩ := erase_at_inv hc
      exact fin (.hdr x r h0 (erase_reading.1 h1) h2 h3 h4) (by rw [erase_set]; rfl)
    | short x r hc h1 h2 h3 h4 h5 =>
      obtain ⟨c', h0, rfl⟩ := erase_at_inv hc
      exact fin (.short x r h0 (erase_reading.1 h1) h2 h3 h4 h5) (by rw [erase_set]; rfl)
    | ends hc h1 h2 h3 h4 =>
      obtain ⟨c', h0, rfl⟩ := erase_at_inv hc
      exact fin (.ends h0 (erase_reading.1 h1) h2 h3 h4) (by rw [erase_set]; rfl)
    | body got x r n hc h1 h2 h3 h4 h5 =>
      obtain ⟨c', h0, rfl⟩ := erase_at_inv hc
      exact fin (.body got x r n h0 (erase_reading.1 h1) h2 h3 h4 h5) (by rw [erase_set]; rfl)
    | bodyErr got n hc h1 h2 h3 h4 =>
      obtain ⟨c', h0, rfl⟩ := erase_at_inv hc
      exact fin (.bodyErr got n h0 (erase_reading.1 h1) h2 h3 h4) (by rw [erase_set]; rfl)
    | bodyEOF got n hc h1 h2 h3 h4 =>
      obtain ⟨c', h0, rfl⟩ := erase_at_inv hc
      exact fin (.bodyEOF got n h0 (erase_reading.1 h1) h2 h3 h4) (by rw [erase_set]; rfl)
    | start got spare hc h1 h2 =>
      obtain ⟨c', h0, rfl⟩ := erase_at_inv hc
      refine fin (.start got spare h0 (erase_reading.1 h1) h2) ?_
      rw [erase_set]
      simp [LConn.erase, LThr.erase, ldispatch_erase]
    | @call i c x k hc hq =>
      refine late hc hq fun ls2 e2 c2 q2 j1 j2 j3 j4 j5 j6 => ?_
      have hw : e2.world = e.erase.world := congrArg Daemon.world j1
      cases q2 with
      | ret a => cases j5
      | panic => cases j5
      | log l k => exact absurd rfl (j6 l k)
      | call x2 k2 =>
        simp only [LProg.erase, Prog.call.injEq] at j5
        obtain ⟨rfl, j5⟩ := j5
        cases j5
        rw [← hw]
        refine ⟨_, .call j2 j4, ?_⟩
        rw [← j1, ← j3]
        simp [LDaemon.erase, List.map_set, LConn.erase, LThr.erase]
    | @reply i c o v b written hc hq =>
      refine late hc hq fun ls2 e2 c2 q2 j1 j2 j3 j4 j5 j6 => ?_
      cases q2 with
      | call x k => cases j5
      | panic => cases j5
      | log l k => exact absurd rfl (j6 l k)
      | ret a =>
        cases j5
        refine ⟨_, .reply written j2 j4, ?_⟩
        rw [erase_set, ← j1, ← j3]
        cases written <;> simp [LConn.erase, LThr.erase, LThr.replied, Thr.replied]
    | @panic i c hc hq =>
      refine late hc hq fun ls2 e2 c2 q2 j1 j2 j3 j4 j5 j6 => ?_
      cases q2 with
      | call x k => cases j5
      | ret a => cases j5
      | log l k => exact absurd rfl (j6 l k)
      | panic =>
        refine ⟨_, .panic j2 j4, ?_⟩
        rw [← j1]
        rfl
    | fatal hc h1 => exact fin (.fatal hc h1) rfl
    | other w => exact fin (.other w) rfl

/-! ### what one connection has done and written -/

/-- a request that has been worked on, see `Job`, and the lines written -/
structure LJob (H : Type) where
  got : Bytes
  spare : Bytes
  evs : List (Ev H)
  lines : List Line
  reply : Bytes

variable (user rootPath) in
/-- see `Worked` -/
inductive LWorked : List (LJob H) → Obj H → Bool → Prop
  | nil : LWorked [] (newObj rootPath) false
  | snoc {h o v o' v' b} (j : LJob H) : LWorked h o v →
      (ldispatch user o v ⟨[], j.got.drop 5, j.spare⟩ (j.got.getD 4 0)).Path j.evs j.lines (.ret (o', v', b)) →
      j.reply = b.bytes → LWorked (h ++ [j]) o' v'

variable (user rootPath) in
/-- what a goroutine has done, see `Work`, when it has written the lines `lns` -/
def LWork (tk : List (Bytes × Bytes)) (cs : List (Ev H)) (lns : List Line) (c : LThr H) : Prop :=
  ∃ h evs l, LWorked user rootPath h c.obj c.Versioned ∧ cs = h.flatMap (·.evs) ++ evs ∧ lns = h.flatMap (·.lines) ++ l ∧
    (match c.running with
      | none => tk = h.map (fun j => (j.got, j.spare)) ∧ evs = [] ∧ l = [] ∧
          (c.out = h.map (·.reply) ∨ (c.dead = true ∧ c.out = (h.map (·.reply)).dropLast))
      | some q => c.dead = false ∧ c.out = h.map (·.reply) ∧ ∃ got spare,
          tk = h.map (fun j => (j.got, j.spare)) ++ [(got, spare)] ∧
          (ldispatch user c.obj c.Versioned ⟨[], got.drop 5, spare⟩ (got.getD 4 0)).Path evs l q)

variable (user rootPath) in
structure LInv (ls : List (DLabel ω H)) (log : List (Nat × Line)) (conns : List (LConn H)) : Prop where
  none : ∀ i, conns.length ≤ i → jobs i ls = [] ∧ made i ls = [] ∧ linesOf i log = []
  conn : ∀ i c, conns[i]? = some c → LWork user rootPath (jobs i ls) (made i ls) (linesOf i log) c.thr

theorem LInv.set {ls l : List (DLabel ω H)} {log lg : List (Nat × Line)} {conns : List (LConn H)} (h : LInv user rootPath ls log conns)
    {i : Nat} {c : LConn H} (hc : conns[i]? = some c) (c' : LConn H)
    (hl : ∀ j, j ≠ i → jobs j l = [] ∧ made j l = [] ∧ linesOf j lg = [])
    (hn : LWork user rootPath (jobs i ls) (made i ls) (linesOf i log) c.thr →
      LWork user rootPath (jobs i ls ++ jobs i l) (made i ls ++ made i l) (linesOf i log ++ linesOf i lg) c'.thr) :
    LInv user rootPath (ls ++ l) (log ++ lg) (conns.set i c') := by
  have hi := (List.getElem?_eq_some_iff.1 hc).1
  refine ⟨fun j hj => ?_, fun j x hx => ?_⟩
  · rw [List.length_set] at hj
    have h1 := h.none j hj
    have h2 := hl j (by omega)
    rw [jobs_append, made_append, linesOf_append, h1.1, h1.2.1, h1.2.2, h2.1, h2.2.1, h2.2.2]
    exact ⟨rfl, rfl, rfl⟩
  · rw [jobs_append, made_append, linesOf_append]
    rcases Nat.decEq j i with hne | rfl
    · rw [List.getElem?_set_ne (Ne.symm hne)] at hx
      have h2 := hl j hne
      rw [h2.1, h2.2.1, h2.2.2, List.append_nil, List.append_nil, List.append_nil]
      exact h.conn j x hx
    · rw [List.getElem?_set_self hi] at hx
      cases hx
      exact hn (h.conn j c hc)

/-- a step that starts no request, makes no call and writes no line -/
theorem LInv.quiet {ls : List (DLabel ω H)} {log : List (Nat × Line)} {conns : List (LConn H)} (h : LInv user rootPath ls log conns)
    {i : Nat} {c : LConn H} (hc : conns[i]? = some c) (l : DLabel ω H) (c' : LConn H)
    (hl : ∀ j, jobs j [l] = [] ∧ made j [l] = [])
    (hn : LWork user rootPath (jobs i ls) (made i ls) (linesOf i log) c.thr →
      LWork user rootPath (jobs i ls) (made i ls) (linesOf i log) c'.thr) :
    LInv user rootPath (ls ++ [l]) log (conns.set i c') := by
  have := h.set (l := [l]) (lg := []) hc c' (fun j _ => ⟨(hl j).1, (hl j).2, rfl⟩) fun hi => by
    rw [(hl i).1, (hl i).2, List.append_nil, List.append_nil]
    simpa [linesOf] using hn hi
  rwa [List.append_nil] at this

theorem lstep_inv {ls : List (LLabel ω H)} {d d' : LDaemon ω H} {l : LLabel ω H} (h : LInv user rootPath (unlogged ls) d.log d.conns)
    (hs : LStep user host rootPath d l d') : LInv user rootPath (unlogged (ls ++ [l])) d'.log d'.conns := by
  rw [unlogged_append]
  have same {m : DLabel ω H} (hl : ∀ j, jobs j [m] = [] ∧ made j [m] = []) : LInv user rootPath (unlogged ls ++ [m]) d.log d.conns := by
    refine ⟨fun j hj => ?_, fun j x hx => ?_⟩
    · rw [jobs_append, made_append, (hl j).1, (hl j).2, (h.none j hj).1, (h.none j hj).2.1]
      exact ⟨rfl, rfl, (h.none j hj).2.2⟩
    · rw [jobs_append, made_append, (hl j).1, (hl j).2, List.append_nil, List.append_nil]
      exact h.conn j x hx
  have stop {i : Nat} {c : LConn H} (hrd : c.reading)
      (hw : LWork user rootPath (jobs i (unlogged ls)) (made i (unlogged ls)) (linesOf i d.log) c.thr) :
      LWork user rootPath (jobs i (unlogged ls)) (made i (unlogged ls)) (linesOf i d.log) { c.thr with dead := true } := by
    obtain ⟨hh, evs, lns, w1, w2, w3, w4⟩ := hw
    rw [hrd.1] at w4
    obtain ⟨m1, m2, m3, m4⟩ := w4
    refine ⟨hh, evs, lns, w1, w2, w3, ?_⟩
    dsimp only
    rw [hrd.1]
    exact ⟨m1, m2, m3, .inl (m4.resolve_right fun x => by rw [hrd.2] at x; cases x.1)⟩
  cases hs with
  | listener l' cs _ _ _ _ =>
    have hl : ∀ j, jobs j [(DLabel.listener cs.length : DLabel ω H)] = [] ∧ made j [(DLabel.listener cs.length : DLabel ω H)] = [] :=
      fun j => ⟨rfl, rfl⟩
    refine ⟨fun j hj => ?_, fun j x hx => ?_⟩
    · simp only [List.length_append] at hj
      exact (same hl).none j (by omega)
    · dsimp only at hx
      rcases Nat.lt_or_ge j d.conns.length with hj | hj
      · rw [List.getElem?_append_left hj] at hx
        exact (same hl).conn j x hx
      · rw [List.getElem?_append_right hj] at hx
        have hx' := List.mem_of_getElem? hx
        obtain ⟨_, _, rfl⟩ := List.mem_map.1 hx'
        have h1 := (same hl).none j hj
        show LWork user rootPath (jobs j (unlogged ls ++ [DLabel.listener cs.length])) (made j (unlogged ls ++ [DLabel.listener cs.length])) (linesOf j d.log) _
        rw [h1.1, h1.2.1, h1.2.2]
        exact ⟨[], [], [], .nil, rfl, rfl, rfl, rfl, rfl, .inl rfl⟩
  | arrive x hc hf => exact h.quiet hc _ _ (fun j => ⟨rfl, rfl⟩) id
  | fin e hc hf => exact h.quiet hc _ _ (fun j => ⟨rfl, rfl⟩) id
  | hdr x r hc hrd hr hu hx => exact h.quiet hc _ _ (fun j => ⟨rfl, rfl⟩) id
  | body got x r n hc hrd hr hu hx hn => exact h.quiet hc _ _ (fun j => ⟨rfl, rfl⟩) id
  | bodyEOF got n hc hrd hr hu hf => exact h.quiet hc _ _ (fun j => ⟨rfl, rfl⟩) id
  | short x r hc hrd hr hu hx hx' => exact h.quiet hc _ _ (fun j => ⟨rfl, rfl⟩) (stop hrd)
  | ends hc hrd hr hu hf => exact h.quiet hc _ _ (fun j => ⟨rfl, rfl⟩) (stop hrd)
  | bodyErr got n hc hrd hr hu hf => exact h.quiet hc _ _ (fun j => ⟨rfl, rfl⟩) (stop hrd)
  | @start i c got spare hc hrd hr =>
    have := h.set (l := [DLabel.start i got spare]) (lg := []) hc
      { c with
        rd := .hdr
        thr := { c.thr with running := some (ldispatch user c.thr.obj c.thr.Versioned ⟨[], got.drop 5, spare⟩ (got.getD 4 0)) } }
      (fun j hj => ⟨by simp [jobs, Ne.symm hj], rfl, rfl⟩) fun hi => by
        rw [show jobs i [(DLabel.start i got spare : DLabel ω H)] = [(got, spare)] by simp [jobs],
          show made i [(DLabel.start i got spare : DLabel ω H)] = [] from rfl, show linesOf i [] = [] from rfl, List.append_nil, List.append_nil]
        obtain ⟨hh, evs, lns, w1, w2, w3, w4⟩ := hi
        rw [hrd.1] at w4
        obtain ⟨m1, rfl, rfl, m4⟩ := w4
        exact ⟨hh, [], [], w1, w2, w3, hrd.2, m4.resolve_right (fun x => by rw [hrd.2] at x; cases x.1), got, spare, by rw [m1], .nil⟩
    rwa [List.append_nil] at this
  | @call i c x k hc hrun =>
    have := h.set (l := [DLabel.call i ⟨x, (host.exec x d.world).2⟩]) (lg := []) hc
      { c with thr := { c.thr with running := some (k (host.exec x d.world).2) } }
      (fun j hj => ⟨rfl, by simp [made, Ne.symm hj], rfl⟩) fun hi => by
        rw [show made i [(DLabel.call i ⟨x, (host.exec x d.world).2⟩ : DLabel ω H)] = [⟨x, (host.exec x d.world).2⟩] by simp [made],
          show jobs i [(DLabel.call i ⟨x, (host.exec x d.world).2⟩ : DLabel ω H)] = [] from rfl, show linesOf i [] = [] from rfl,
          List.append_nil, List.append_nil]
        obtain ⟨hh, evs, lns, w1, w2, w3, w4⟩ := hi
        rw [hrun] at w4
        obtain ⟨m1, m2, got, spare, m3, m4⟩ := w4
        exact ⟨hh, evs ++ [⟨x, _⟩], lns, w1, by rw [w2, List.append_assoc], w3, m1, m2, got, spare, m3, m4.snoc_call _⟩
    rwa [List.append_nil] at this
  | @log i c l k hc hrun =>
    have := h.set (l := []) (lg := [(i, l)]) hc { c with thr := { c.thr with running := some k } }
      (fun j hj => ⟨rfl, rfl, by simp [linesOf, Ne.symm hj]⟩) fun hi => by
        rw [show jobs i ([] : List (DLabel ω H)) = [] from rfl, show made i ([] : List (DLabel ω H)) = [] from rfl,
          show linesOf i [(i, l)] = [l] by simp [linesOf], List.append_nil, List.append_nil]
        obtain ⟨hh, evs, lns, w1, w2, w3, w4⟩ := hi
        rw [hrun] at w4
        obtain ⟨m1, m2, got, spare, m3, m4⟩ := w4
        exact ⟨hh, evs, lns ++ [l], w1, w2, by rw [w3, List.append_assoc], m1, m2, got, spare, m3, m4.snoc_log⟩
    exact this
  | @reply i c o v b written hc hrun =>
    refine h.quiet hc _ _ (fun j => ⟨rfl, rfl⟩) fun hi => ?_
    obtain ⟨hh, evs, lns, w1, w2, w3, w4⟩ := hi
    rw [hrun] at w4
    obtain ⟨m1, m2, got, spare, m3, m4⟩ := w4
    have hw' := w1.snoc ⟨got, spare, evs, lns, b.bytes⟩ m4 rfl
    refine ⟨hh ++ [⟨got, spare, evs, lns, b.bytes⟩], [], [], ?_, by rw [w2]; simp, by rw [w3]; simp, ?_⟩
    · cases written <;> exact hw'
    · cases written with
      | true => exact ⟨by rw [m3]; simp, rfl, rfl, .inl (by simp [LThr.replied, m2])⟩
      | false => exact ⟨by rw [m3]; simp, rfl, rfl, .inr ⟨rfl, by simp [LThr.replied, m2]⟩⟩
  | panic _ _ => exact same fun j => ⟨rfl, rfl⟩
  | fatal _ _ => exact same fun j => ⟨rfl, rfl⟩
  | other w => exact same fun j => ⟨rfl, rfl⟩

theorem lrun_inv {w0 : ω} {ls : List (LLabel ω H)} {d : LDaemon ω H} (hr : LRun user host rootPath w0 ls d) :
    LInv user rootPath (unlogged ls) d.log d.conns := by
  induction hr with
  | fails e => exact ⟨fun i _ => ⟨rfl, rfl, rfl⟩, fun i c h => by simp at h⟩
  | init => exact ⟨fun i _ => ⟨rfl, rfl, rfl⟩, fun i c h => by simp [LDaemon.start] at h⟩
  | step _ _ hs ih => exact lstep_inv ih hs

/-! ### the lines of a request -/

/-- the program writes a line, then does something without writing, then writes a line and returns -/
def Announces {α : Type} (A : Line → Prop) (p : LProg H α) : Prop :=
  ∃ (a : Line) (β : Type) (m : Prog H β) (f : β → LProg H α), A a ∧ p = .log a (m.quiet.bind f) ∧ ∀ r, ∃ b x, f r = .log b (.ret x)

theorem LProg.bind_assoc {α β γ : Type} (p : LProg H α) (f : α → LProg H β) (g : β → LProg H γ) :
    (p.bind f).bind g = p.bind fun a => (f a).bind g := by
  induction p with
  | ret a => rfl
  | panic => rfl
  | call c k ih => simp only [LProg.bind, ih]
  | log l k ih => simp only [LProg.bind, ih]

theorem Announces.bind {α β : Type} {A : Line → Prop} {p : LProg H α} (h : Announces A p) (g : α → LProg H β)
    (hg : ∀ x, ∃ y, g x = .ret y) : Announces A (p.bind g) := by
  obtain ⟨a, γ, m, f, h1, rfl, h2⟩ := h
  refine ⟨a, γ, m, fun r => (f r).bind g, h1, ?_, fun r => ?_⟩
  · simp only [LProg.bind, LProg.bind_assoc]
  · obtain ⟨b, x, hr⟩ := h2 r
    obtain ⟨y, hy⟩ := hg x
    exact ⟨b, y, by dsimp only; rw [hr]; simp only [LProg.bind, hy]⟩

theorem quiet_path {α β : Type} (m : Prog H β) (f : β → LProg H α) (hf : ∀ r, ∃ b x, f r = .log b (.ret x)) {evs : List (Ev H)} {l : List Line}
    {q : LProg H α} (h : (m.quiet.bind f).Path evs l q) : (l = [] ∧ ∀ x, q ≠ .ret x) ∨ ∃ b x, l = [b] ∧ q = .ret x := by
  induction m generalizing evs with
  | ret r =>
    obtain ⟨b, x, hr⟩ := hf r
    simp only [Prog.quiet, LProg.bind] at h
    rw [hr] at h
    cases h with
    | nil => exact .inl ⟨rfl, nofun⟩
    | log h =>
      cases h
      exact .inr ⟨b, x, rfl, rfl⟩
  | panic =>
    cases h
    exact .inl ⟨rfl, nofun⟩
  | call c k ih =>
    simp only [Prog.quiet, LProg.bind] at h
    cases h with
    | nil => exact .inl ⟨rfl, nofun⟩
    | call h => exact ih _ h

theorem Announces.path {α : Type} {A : Line → Prop} {p q : LProg H α} (h : Announces A p) {evs : List (Ev H)} {l : List Line} (hp : p.Path evs l q) :
    (l = [] ∧ evs = [] ∧ q = p) ∨ ∃ a, A a ∧ ((l = [a] ∧ ∀ x, q ≠ .ret x) ∨ ∃ b x, l = [a, b] ∧ q = .ret x) := by
  obtain ⟨a, β, m, f, h1, rfl, h2⟩ := h
  cases hp with
  | nil => exact .inl ⟨rfl, rfl, rfl⟩
  | log hp =>
    rcases quiet_path m f h2 hp with ⟨rfl, h3⟩ | ⟨b, x, rfl, h3⟩
    · exact .inr ⟨a, h1, .inl ⟨rfl, h3⟩⟩
    · exact .inr ⟨a, h1, .inr ⟨b, x, rfl, h3⟩⟩

theorem laround_announces {α : Type} {A : Line → Prop} (fmt : String) (args : List Arg) (m : Met H α) (rfmt : String) (rargs : α → List Arg)
    (h : A ⟨fmt, args⟩) : Announces A (laround fmt args m rfmt rargs) := by
  refine ⟨_, _, m, _, h, rfl, fun r => ?_⟩
  obtain ⟨o, r⟩ := r
  cases r <;> exact ⟨_, _, rfl⟩

theorem lstat_announces (p : TstatPkt) (o : Obj H) : Announces (ReqLine (.stat p)) (lstat user p.OFID o) := by
  refine ⟨_, _, pstat user p.OFID o, _, rfl, rfl, fun r => ?_⟩
  obtain ⟨o, r⟩ := r
  cases r with
  | error e => exact ⟨_, _, rfl⟩
  | ok b =>
    dsimp only
    cases hu : unmarshaldir (Buffer.ofBytes b) with
    | panic => exact absurd hu (unmarshaldir_safe _)
    | done => exact ⟨_, _, rfl⟩

theorem lwstat_announces (p : TwstatPkt) (o : Obj H) : Announces (ReqLine (.wstat p)) (lwstat p.OFID p.B o) := by
  unfold lwstat
  cases hu : unmarshaldir (Buffer.ofBytes p.B) with
  | panic => exact absurd hu (unmarshaldir_safe _)
  | done => exact laround_announces _ _ _ _ _ ⟨_, rfl, Debugfs.unmarshaldir_shows hu⟩

theorem lsrv_announces {P Q : Type} (dec : Buffer → Unm P) {lm : P → Obj H → LMet H Q} (enc : Buffer → Tag → Q → Buffer) (g : P → TMsg)
    (h : ∀ p o, Announces (ReqLine (g p)) (lm p o)) (o : Obj H) (v : Bool) (b : Buffer) {m : TMsg} {t e b'}
    (hd : (dec b).map g = .done m t e b') : Announces (ReqLine m) (lsrv dec lm enc o v b) := by
  unfold lsrv
  cases hb : dec b with
  | panic => rw [hb] at hd; cases hd
  | done p t' e' b'' =>
    rw [hb] at hd
    simp only [Unm.map, Unm.done.injEq] at hd
    obtain ⟨rfl, -⟩ := hd
    refine (h p o).bind _ fun r => ?_
    obtain ⟨o, r⟩ := r
    cases r <;> exact ⟨_, rfl⟩

theorem ldispatch_announces (m : TMsg) (o : Obj H) (v : Bool) (hv : v = true ∨ m.ty = MT.Tversion) (b : Buffer) {m' : TMsg} {t e b'}
    (hd : decT m b = .done m' t e b') : Announces (ReqLine m') (ldispatch user o v b m.ty) := by
  have key : ∀ v, Announces (ReqLine m') (ldispatchTable user o v b m.ty) := by
    intro v
    unfold ldispatchTable
    cases m with
    | version p => exact lsrv_announces _ _ TMsg.version (fun p o => laround_announces _ _ _ _ _ rfl) o v b hd
    | attach p => exact lsrv_announces _ _ TMsg.attach (fun p o => laround_announces _ _ _ _ _ rfl) o v b hd
    | flush p => exact lsrv_announces _ _ TMsg.flush (fun p o => laround_announces _ _ _ _ _ rfl) o v b hd
    | walk p => exact lsrv_announces _ _ TMsg.walk (fun p o => laround_announces _ _ _ _ _ rfl) o v b hd
    | open_ p => exact lsrv_announces _ _ TMsg.open_ (fun p o => laround_announces _ _ _ _ _ rfl) o v b hd
    | create p => exact lsrv_announces _ _ TMsg.create (fun p o => laround_announces _ _ _ _ _ rfl) o v b hd
    | stat p => exact lsrv_announces _ _ TMsg.stat (fun p o => lstat_announces p o) o v b hd
    | wstat p => exact lsrv_announces _ _ TMsg.wstat (fun p o => lwstat_announces p o) o v b hd
    | clunk p => exact lsrv_announces _ _ TMsg.clunk (fun p o => laround_announces _ _ _ _ _ rfl) o v b hd
    | remove p => exact lsrv_announces _ _ TMsg.remove (fun p o => laround_announces _ _ _ _ _ rfl) o v b hd
    | read p => exact lsrv_announces _ _ TMsg.read (fun p o => laround_announces _ _ _ _ _ rfl) o v b hd
    | write p => exact lsrv_announces _ _ TMsg.write (fun p o => laround_announces _ _ _ _ _ rfl) o v b hd
  unfold ldispatch
  by_cases ht : m.ty = MT.Tversion
  · rw [if_pos ht]; exact key true
  · rw [if_neg ht, if_neg (by rw [hv.resolve_right ht]; simp)]
    exact key v

/-! ### the transcript -/

open Client in
theorem lworked_calls {h : List (LJob H)} {o : Obj H} {v : Bool} (hw : LWorked user rootPath h o v) (reqs : List (Tag × TMsg))
    (hg : h.map (·.got) = reqs.map fun r => r.2.packet r.1)
    (hf : ∀ r ∈ reqs, r.2.Fits ∧ (r.2.packet r.1).length < 2 ^ 32)
    (hv : ∀ r, reqs.head? = some r → r.2.ty = MT.Tversion) (rest : List (Ev H)) :
    (reqs ≠ [] → v = true) ∧ ∃ rs,
    runCalls (debugServer (ufs (scripted H) user)) (reqs.map (·.2)) (newFS rootPath ⟨h.flatMap (·.evs) ++ rest, []⟩, []) =
      some ((o.into ⟨rest, h.flatMap (·.evs)⟩, h.flatMap (·.lines)), rs) ∧
    h.map (·.reply) = List.zipWith asPacket (reqs.map (·.1)) rs ∧ rs.length = reqs.length := by
  induction hw generalizing reqs rest with
  | nil =>
    have : reqs = [] := by simpa using hg.symm
    subst this
    exact ⟨fun x => absurd rfl x, [], rfl, rfl, rfl⟩
  | @snoc h o v o' v' b j hw hp hrep ih =>
    rcases List.eq_nil_or_concat reqs with rfl | ⟨reqs', ⟨t, m⟩, rfl⟩
    · simp at hg
    · simp only [List.concat_eq_append] at *
      simp only [List.map_append, List.map_cons, List.map_nil] at hg
      obtain ⟨hg1, hg2⟩ := List.append_inj' hg rfl
      simp only [List.cons.injEq, and_true] at hg2
      obtain ⟨hmf, hml⟩ := hf (t, m) (by simp)
      obtain ⟨ih1, rs, ih2, ih3, ih4⟩ := ih reqs' hg1 (fun r hr => hf r (by simp [hr]))
        (fun r hr => hv r (by cases reqs' <;> simp_all)) (j.evs ++ rest)
      have hvv : v = true ∨ m.ty = MT.Tversion := by
        by_cases he : reqs' = []
        · exact .inr (hv (t, m) (by simp [he]))
        · exact .inl (ih1 he)
      have hd := run_ldispatch (scripted H) user (o.into ⟨j.evs ++ rest, h.flatMap (·.evs)⟩) (h.flatMap (·.lines)) v
        ⟨[], j.got.drop 5, j.spare⟩ (j.got.getD 4 0)
      rw [into_obj, show (o.into (⟨j.evs ++ rest, h.flatMap (·.evs)⟩ : Script H)).world = ⟨j.evs ++ rest, h.flatMap (·.evs)⟩ from rfl,
        hp.replay rfl] at hd
      have hty := (packet_framing m t hml).2.1
      rw [hg2, hty, dispatch_negotiated _ m _ v _ hvv, ← hty] at hd
      obtain ⟨h1, h2⟩ := Client.serve_answer hmf hml rfl hd
      refine ⟨fun _ => h1, ?_⟩
      have happ := runCalls_append _ _ m _ _ _ ih2
      rcases h2 with ⟨r, hc, hb⟩ | ⟨e, hc, hb⟩
      · refine ⟨rs ++ [.ok r], ?_, ?_, by simp [ih4]⟩
        · have := happ.1 _ _ hc
          simpa using this
        · simp only [List.map_append, List.map_cons, List.map_nil]
          rw [List.zipWith_append (by simp [ih4]), ih3, hrep, hb]
          rfl
      · refine ⟨rs ++ [.error e], ?_, ?_, by simp [ih4]⟩
        · have := happ.2 _ _ hc
          simpa using this
        · simp only [List.map_append, List.map_cons, List.map_nil]
          rw [List.zipWith_append (by simp [ih4]), ih3, hrep, hb]
          rfl

open Client in
/-- the wrapper does not matter to the results -/
theorem plain_calls {σ : Type} (ns : NineServer σ) (ms : List TMsg) {s s' : σ} {log log' : List Line} {rs : List (Except GoString RMsg)}
    (h : runCalls (debugServer ns) ms (s, log) = some ((s', log'), rs)) : runCalls ns ms s = some (s', rs) := by
  have := runCalls_same (Debugfs.C61_transparent ns) ms (s := (s, log)) (t := s) rfl
  rw [h] at this
  cases h2 : runCalls ns ms s with
  | none => rw [h2] at this; exact this.elim
  | some y =>
    rw [h2] at this
    obtain ⟨h3, h4⟩ := this
    obtain ⟨y1, y2⟩ := y
    cases h3; cases h4; rfl

open Client in
theorem runCalls_longer {σ : Type} (ns : NineServer σ) (a : List TMsg) (m : TMsg) {x x1 y : σ} {rs rs' : List (Except GoString RMsg)}
    (h : runCalls ns a x = some (x1, rs)) (h' : runCalls ns (a ++ [m]) x = some (y, rs')) : ∃ r, rs' = rs ++ [r] := by
  have := runCalls_append ns a m x x1 rs h
  cases hc : call ns m x1 with
  | ok x2 r =>
    rw [this.1 _ _ hc] at h'
    cases h'
    exact ⟨_, rfl⟩
  | err x2 e =>
    rw [this.2 _ _ hc] at h'
    cases h'
    exact ⟨_, rfl⟩
  | panic =>
    exfalso
    clear this
    induction a generalizing x rs rs' with
    | nil =>
      cases h
      simp [runCalls, hc] at h'
    | cons n a ih =>
      simp only [runCalls, List.cons_append] at h h'
      cases hn : call ns n x with
      | panic => rw [hn] at h; cases h
      | ok x' r =>
        rw [hn] at h h'
        simp only [Option.map_eq_some_iff] at h h'
        obtain ⟨⟨z1, z2⟩, h1, h2⟩ := h
        obtain ⟨⟨z3, z4⟩, h3, h4⟩ := h'
        cases h2; cases h4
        exact ih h1 h3
      | err x' r =>
        rw [hn] at h h'
        simp only [Option.map_eq_some_iff] at h h'
        obtain ⟨⟨z1, z2⟩, h1, h2⟩ := h
        obtain ⟨⟨z3, z4⟩, h3, h4⟩ := h'
        cases h2; cases h4
        exact ih h1 h3

theorem head_take {α : Type} (l : List α) (n : Nat) {x : α} (h : (l.take n).head? = some x) : l.head? = some x := by
  cases l with
  | nil => simp at h
  | cons y ys =>
    cases n with
    | zero => simp at h
    | succ n => simpa using h

open Client in
/-- C107: the log is a transcript, however many connections are served at the same time.  Of a client that sends
requests, the first a Tversion, and does not close the connection within one (see C95), whose connection is idle, the
lines are these: for each request the server has worked on, in order, the request with its arguments and the reply it
was given; and the file server has given these replies, with the answers of the operating system as they were. -/
theorem C107_transcript {w0 : ω} {ls : List (LLabel ω H)} {d : LDaemon ω H} (hr : LRun user host rootPath w0 ls d)
    {i : Nat} {c : LConn H} (hc : d.conns[i]? = some c) (hrun : c.thr.running = none) (reqs : List (Tag × TMsg))
    (hf : ∀ r ∈ reqs, r.2.Fits ∧ (r.2.packet r.1).length < 2 ^ 32) (hv : ∀ r, reqs.head? = some r → r.2.ty = MT.Tversion)
    (hb : c.all <+: (reqs.map fun r => r.2.packet r.1).flatten)
    (he : c.fin = some .eof → c.all = (reqs.map fun r => r.2.packet r.1).flatten) :
    ∃ k rs, k ≤ reqs.length ∧ rs.length = k ∧ taken i (unlogged ls) = (reqs.take k).map (fun r => r.2.packet r.1) ∧
      runCalls (ufs (scripted H) user) ((reqs.take k).map (·.2)) (newFS rootPath ⟨made i (unlogged ls), []⟩) =
        some (c.thr.obj.into ⟨[], made i (unlogged ls)⟩, rs) ∧
      Transcript ((reqs.take k).map (·.2)) rs (linesOf i d.log) ∧
      (c.thr.out = List.zipWith asPacket ((reqs.take k).map (·.1)) rs ∨
        (c.thr.dead = true ∧ c.thr.out = (List.zipWith asPacket ((reqs.take k).map (·.1)) rs).dropLast)) ∧
      (c.rd = .hdr → c.up = [] → c.all = (reqs.map fun r => r.2.packet r.1).flatten → k = reqs.length) := by
  obtain ⟨hlen, htk, hall⟩ := taken_requests (C107_same hr) (erase_at hc) reqs hf hb he
  obtain ⟨h, evs, l, hw, hcs, hl, hm⟩ := (lrun_inv hr).conn i c hc
  rw [hrun] at hm
  obtain ⟨hm1, rfl, rfl, hm2⟩ := hm
  have hgot : h.map (·.got) = taken i (unlogged ls) := by rw [taken, hm1]; simp
  rw [List.append_nil] at hcs hl
  obtain ⟨-, rs, h1, h2, h3⟩ := lworked_calls hw (reqs.take (taken i (unlogged ls)).length) (hgot.trans htk)
    (fun r hr => hf r (List.mem_of_mem_take hr)) (fun r hr => hv r (head_take _ _ hr)) []
  rw [List.append_nil, ← hcs, ← hl] at h1
  obtain ⟨l, h4, h5⟩ := Debugfs.C70_transcript _ _ _ _ _ _ _ h1
  rw [List.nil_append] at h4
  subst h4
  refine ⟨_, rs, hlen, by rw [h3, List.length_take]; omega, htk, plain_calls _ _ h1, h5, ?_, hall⟩
  rw [← h2]
  exact hm2

open Client in
/-- C107: while the server works on a request of such a client, the lines are those of the requests before, and, from
the first call of the operating system on, the line of that request; when the reply has been logged, too, it is a
transcript again, with the reply that is about to be written.  If the request makes the program panic, its line is the
last one of the connection. -/
theorem C107_pending {w0 : ω} {ls : List (LLabel ω H)} {d : LDaemon ω H} (hr : LRun user host rootPath w0 ls d)
    {i : Nat} {c : LConn H} (hc : d.conns[i]? = some c) {q : LProg H (Served H)} (hrun : c.thr.running = some q) (reqs : List (Tag × TMsg))
    (hf : ∀ r ∈ reqs, r.2.Fits ∧ (r.2.packet r.1).length < 2 ^ 32) (hv : ∀ r, reqs.head? = some r → r.2.ty = MT.Tversion)
    (hb : c.all <+: (reqs.map fun r => r.2.packet r.1).flatten)
    (he : c.fin = some .eof → c.all = (reqs.map fun r => r.2.packet r.1).flatten) :
    ∃ k t m rs done evs evs', reqs[k]? = some (t, m) ∧ taken i (unlogged ls) = (reqs.take (k + 1)).map (fun r => r.2.packet r.1) ∧
      made i (unlogged ls) = evs ++ evs' ∧
      runCalls (ufs (scripted H) user) ((reqs.take k).map (·.2)) (newFS rootPath ⟨made i (unlogged ls), []⟩) =
        some (c.thr.obj.into ⟨evs', evs⟩, rs) ∧
      c.thr.out = List.zipWith asPacket ((reqs.take k).map (·.1)) rs ∧ Transcript ((reqs.take k).map (·.2)) rs done ∧
      ((linesOf i d.log = done ∧ evs' = [] ∧ q ≠ .panic) ∨
       (∃ a, ReqLine m a ∧ linesOf i d.log = done ++ [a]) ∨
       (∃ r o v b, Transcript ((reqs.take (k + 1)).map (·.2)) (rs ++ [r]) (linesOf i d.log) ∧ q = .ret (o, v, b) ∧ b.bytes = asPacket t r ∧
         runCalls (ufs (scripted H) user) ((reqs.take (k + 1)).map (·.2)) (newFS rootPath ⟨made i (unlogged ls), []⟩) =
           some (o.into ⟨[], made i (unlogged ls)⟩, rs ++ [r]))) := by
  obtain ⟨hlen, htk, -⟩ := taken_requests (C107_same hr) (erase_at hc) reqs hf hb he
  obtain ⟨h, evs', l, hw, hcs, hl, hm⟩ := (lrun_inv hr).conn i c hc
  rw [hrun] at hm
  obtain ⟨hm1, hm2, got, spare, hm3, hm4⟩ := hm
  have htl : (taken i (unlogged ls)).length = h.length + 1 := by rw [taken, hm3]; simp
  rw [htl] at htk hlen
  have hgot : h.map (·.got) ++ [got] = taken i (unlogged ls) := by rw [taken, hm3]; simp
  obtain ⟨⟨t, m⟩, hk⟩ : ∃ r, reqs[h.length]? = some r := ⟨_, List.getElem?_eq_getElem (by omega)⟩
  have htake : reqs.take (h.length + 1) = reqs.take h.length ++ [(t, m)] := by
    rw [List.take_add_one, hk]; rfl
  rw [htk, htake, List.map_append] at hgot
  obtain ⟨hg1, hg2⟩ := List.append_inj' hgot rfl
  simp only [List.map_cons, List.map_nil, List.cons.injEq, and_true] at hg2
  have hmem : (t, m) ∈ reqs := List.mem_of_getElem? hk
  obtain ⟨hmf, hml⟩ := hf (t, m) hmem
  obtain ⟨hvv, rs, h1, h2, h3⟩ := lworked_calls hw (reqs.take h.length) hg1
    (fun r hr => hf r (List.mem_of_mem_take hr)) (fun r hr => hv r (head_take _ _ hr)) evs'
  rw [← hcs] at h1
  obtain ⟨done, h4, h5⟩ := Debugfs.C70_transcript _ _ _ _ _ _ _ h1
  rw [List.nil_append] at h4
  refine ⟨h.length, t, m, rs, done, h.flatMap (·.evs), evs', hk, by rw [htk], hcs, plain_calls _ _ h1, ?_, h5, ?_⟩
  · rw [← h2]
    exact hm2
  have hv2 : c.thr.Versioned = true ∨ m.ty = MT.Tversion := by
    by_cases he : reqs.take h.length = []
    · refine .inr (hv (t, m) ?_)
      cases reqs with
      | nil => simp at hmem
      | cons y ys =>
        cases hn : h.length with
        | zero => rw [hn] at hk; simpa using hk
        | succ n => rw [hn] at he; simp at he
    · exact .inl (hvv he)
  have hfr := packet_framing m t hml
  have hpath := hm4
  rw [hg2, hfr.2.1, hfr.2.2] at hpath
  rcases (ldispatch_announces m c.thr.obj c.thr.Versioned hv2 _ ((lawsT m).fwd hmf [] spare t)).path hpath with
    ⟨rfl, rfl, hq⟩ | ⟨a, ha, ⟨rfl, hq⟩ | ⟨b, x, rfl, hq⟩⟩
  · refine .inl ⟨by rw [hl, List.append_nil, h4], rfl, ?_⟩
    obtain ⟨a, β, m', f, -, h6, -⟩ := ldispatch_announces (user := user) m c.thr.obj c.thr.Versioned hv2 _ ((lawsT m).fwd hmf [] spare t)
    rw [hq, h6]
    nofun
  · exact .inr (.inl ⟨a, ha, by rw [hl, h4]⟩)
  · subst hq
    obtain ⟨o', v', b'⟩ := x
    have hw' := hw.snoc ⟨got, spare, evs', [a, b], b'.bytes⟩ hm4 rfl
    obtain ⟨-, rs', g1, g2, g3⟩ := lworked_calls hw' (reqs.take (h.length + 1)) (by rw [htake]; simp [hg1, hg2])
      (fun r hr => hf r (List.mem_of_mem_take hr)) (fun r hr => hv r (head_take _ _ hr)) []
    rw [htake] at g1 g2 g3
    rw [List.append_nil, List.map_append, List.flatMap_append, List.flatMap_append] at g1
    simp only [List.flatMap_cons, List.flatMap_nil, List.append_nil, List.map_cons, List.map_nil] at g1
    rw [← hl, ← hcs] at g1
    obtain ⟨r, rfl⟩ := runCalls_longer _ _ _ h1 g1
    obtain ⟨l, g4, g5⟩ := Debugfs.C70_transcript _ _ _ _ _ _ _ g1
    rw [List.nil_append] at g4
    rw [← g4] at g5
    refine .inr (.inr ⟨r, o', v', b', by rw [htake, List.map_append]; exact g5, rfl, ?_, ?_⟩)
    · simp only [List.map_append, List.map_cons, List.map_nil] at g2
      rw [List.zipWith_append (by simp [h3]), ← h2] at g2
      simpa using (List.append_inj' g2 rfl).2
    · rw [htake, List.map_append]
      exact (plain_calls _ _ g1).trans (by rw [hcs])

theorem panic_running {w0 : ω} {ls : List (LLabel ω H)} {d : LDaemon ω H} (hr : LRun user host rootPath w0 ls d) {i : Nat}
    (hx : d.exit = some (.panic i)) : ∃ c, d.conns[i]? = some c ∧ c.thr.running = some .panic := by
  cases hr with
  | fails e => cases hx
  | init => cases hx
  | step _ hn hs =>
    cases hs with
    | panic hc hq => cases hx; exact ⟨_, hc, hq⟩
    | fatal _ _ => cases hx
    | _ => simp only [hn] at hx; cases hx

open Client in
/-- C107: a crash can be seen in the log: if a request of such a client has ended the program, the last line the
connection has written is that request, and before it are the requests that were answered, with the replies that were
written. -/
theorem C107_crash {w0 : ω} {ls : List (LLabel ω H)} {d : LDaemon ω H} (hr : LRun user host rootPath w0 ls d) {i : Nat}
    (hx : d.exit = some (.panic i)) : ∃ c, d.conns[i]? = some c ∧ ∀ reqs : List (Tag × TMsg),
    (∀ r ∈ reqs, r.2.Fits ∧ (r.2.packet r.1).length < 2 ^ 32) → (∀ r, reqs.head? = some r → r.2.ty = MT.Tversion) →
    c.all <+: (reqs.map fun r => r.2.packet r.1).flatten → (c.fin = some .eof → c.all = (reqs.map fun r => r.2.packet r.1).flatten) →
    ∃ k t m rs done a, reqs[k]? = some (t, m) ∧ taken i (unlogged ls) = (reqs.take (k + 1)).map (fun r => r.2.packet r.1) ∧
      linesOf i d.log = done ++ [a] ∧ Transcript ((reqs.take k).map (·.2)) rs done ∧ ReqLine m a ∧
      c.thr.out = List.zipWith asPacket ((reqs.take k).map (·.1)) rs ∧ ∃ evs evs', made i (unlogged ls) = evs ++ evs' ∧
      runCalls (ufs (scripted H) user) ((reqs.take k).map (·.2)) (newFS rootPath ⟨made i (unlogged ls), []⟩) =
        some (c.thr.obj.into ⟨evs', evs⟩, rs) := by
  obtain ⟨c, hc, hq⟩ := panic_running hr hx
  refine ⟨c, hc, fun reqs hf hv hb he => ?_⟩
  obtain ⟨k, t, m, rs, done, evs, evs', h1, h2, h3, h4, ho, h5, h6⟩ := C107_pending hr hc hq reqs hf hv hb he
  rcases h6 with ⟨-, -, h6⟩ | ⟨a, h6, h7⟩ | ⟨r, o, v, b, -, h6, -⟩
  · exact absurd rfl h6
  · exact ⟨k, t, m, rs, done, a, h1, h2, h7, h5, h6, ho, evs, evs', h3, h4⟩
  · cases h6

/-! ### the hypotheses can be met -/

section
variable (host : Host ω H) (user rootPath : GoString)

inductive LSteps : LDaemon ω H → List (LLabel ω H) → LDaemon ω H → Prop
  | nil {d} : LSteps d [] d
  | cons {d l d1 ls d2} : d.exit = none → LStep user host rootPath d l d1 → LSteps d1 ls d2 → LSteps d (l :: ls) d2

theorem LSteps.run {w0 : ω} {d d' : LDaemon ω H} {ls0 ls : List (LLabel ω H)} (h0 : LRun user host rootPath w0 ls0 d)
    (h : LSteps host user rootPath d ls d') : LRun user host rootPath w0 (ls0 ++ ls) d' := by
  induction h generalizing ls0 with
  | nil => simpa using h0
  | cons hn h1 _ ih => simpa using ih (h0.step hn h1)

theorem LSteps.append {d d1 d2 : LDaemon ω H} {a b : List (LLabel ω H)} (h1 : LSteps host user rootPath d a d1) (h2 : LSteps host user rootPath d1 b d2) :
    LSteps host user rootPath d (a ++ b) d2 := by
  induction h1 with
  | nil => exact h2
  | cons hn hs _ ih => exact .cons hn hs (ih h2)

/-- what may happen in the examples -/
inductive LChoice where
  /-- a packet arrives in one piece and the goroutine takes it -/
  | send (i : Nat) (g : Bytes)
  /-- the goroutine goes on -/
  | go (i : Nat)

def LDaemon.send (d : LDaemon ω H) (i : Nat) (c : LConn H) (g : Bytes) : LDaemon ω H :=
  { d with conns := d.conns.set i { c with
      all := c.all ++ g
      up := []
      rd := .hdr
      thr := { c.thr with running := some (ldispatch user c.thr.obj c.thr.Versioned ⟨[], g.drop 5, []⟩ (g.getD 4 0)) } } }

theorem send_steps {d : LDaemon ω H} (hn : d.exit = none) {i : Nat} {c : LConn H} (hc : d.conns[i]? = some c) (h1 : c.thr.running.isNone = true)
    (h2 : c.thr.dead = false) (h3 : c.up = []) (h4 : c.fin.isNone = true) (h5 : c.rd = .hdr) (g : Bytes) (hw : g.length = pktLen g) (h8 : 8 ≤ g.length) :
    LSteps host user rootPath d [.step (.arrive i g), .step (.read i), .step (.read i), .step (.start i g [])] (d.send user i c g) := by
  obtain ⟨all, up, fin, rd, thr⟩ := c
  dsimp only at *
  subst h3 h5
  have hrd : (thr.running = none) := by simpa using h1
  have hf : fin = none := by simpa using h4
  subst hf
  have hlen : (g.take 7).length = 7 := by simp; omega
  have hi : i < d.conns.length := (List.getElem?_eq_some_iff.1 hc).1
  have hz : hdrSize (g.take 7) - 7 = (g.drop 7).length := by
    have := pktLen_hdr hlen
    rw [← pktLen_append (y := g.drop 7) (by omega), List.take_append_drop] at this
    simp only [List.length_drop]
    omega
  have s1 : LStep user host rootPath d _ _ := .arrive g hc rfl
  have s2 : LStep user host rootPath { d with conns := d.conns.set i { all := all ++ g, up := g, fin := none, rd := .hdr, thr := thr } } _ _ :=
    .hdr (g.take 7) (g.drop 7) (List.getElem?_set_self hi) ⟨hrd, h2⟩ rfl (by simp) hlen
  have s3 : LStep user host rootPath { d with conns := d.conns.set i { all := all ++ g, up := g.drop 7, fin := none, rd := .body (g.take 7) (hdrSize (g.take 7) - 7), thr := thr } } _ _ :=
    .body (g.take 7) (g.drop 7) [] _ (List.getElem?_set_self hi) ⟨hrd, h2⟩ rfl (List.append_nil _).symm (by simp; omega) (by omega)
  have s4 : LStep user host rootPath { d with conns := d.conns.set i { all := all ++ g, up := [], fin := none, rd := .body g 0, thr := thr } } _ _ :=
    .start g [] (List.getElem?_set_self hi) ⟨hrd, h2⟩ rfl
  simp only [List.set_set, List.nil_append, List.take_append_drop, hz, Nat.sub_self] at s1 s2 s3 s4
  exact .cons hn s1 (.cons hn s2 (.cons hn s3 (.cons hn s4 .nil)))

/-- one choice -/
def LDaemon.choose (d : LDaemon ω H) : LChoice → Option (List (LLabel ω H) × LDaemon ω H)
  | .send i g =>
    match d.conns[i]? with
    | none => none
    | some c =>
      if d.exit.isNone = true ∧ c.thr.running.isNone = true ∧ c.thr.dead = false ∧ c.up = [] ∧ c.fin.isNone = true ∧ c.rd = .hdr ∧ g.length = pktLen g ∧ 8 ≤ g.length then
        some ([.step (.arrive i g), .step (.read i), .step (.read i), .step (.start i g [])], d.send user i c g)
      else none
  | .go i =>
    if d.exit.isNone = true then
      match d.conns[i]? with
      | none => none
      | some c =>
        match c.thr.running with
        | none => none
        | some (.ret (o, v, b)) => some ([.step (.reply i true)], { d with conns := d.conns.set i { c with rd := .hdr, thr := c.thr.replied o v b true } })
        | some .panic => some ([.step (.panic i)], { d with exit := some (.panic i) })
        | some (.call x k) => some ([.step (.call i ⟨x, (host.exec x d.world).2⟩)], { d with
            conns := d.conns.set i { c with thr := { c.thr with running := some (k (host.exec x d.world).2) } }
            world := (host.exec x d.world).1 })
        | some (.log l k) => some ([.log i l], { d with
            conns := d.conns.set i { c with thr := { c.thr with running := some k } }
            log := d.log ++ [(i, l)] })
    else none

theorem LDaemon.choose_sound {d d' : LDaemon ω H} {ch : LChoice} {ls : List (LLabel ω H)} (h : d.choose host user ch = some (ls, d')) :
    LSteps host user rootPath d ls d' := by
  cases ch with
  | send i g =>
    unfold LDaemon.choose at h
    dsimp only at h
    cases hc : d.conns[i]? with
    | none => rw [hc] at h; cases h
    | some c =>
      rw [hc] at h
      dsimp only at h
      split at h
      · rename_i hh
        obtain ⟨h0, h1, h2, h3, h4, h5, h6, h7⟩ := hh
        simp only [Option.some.injEq, Prod.mk.injEq] at h
        obtain ⟨rfl, rfl⟩ := h
        exact send_steps host user rootPath (by simpa using h0) hc h1 h2 h3 h4 h5 g h6 h7
      · cases h
  | go i =>
    unfold LDaemon.choose at h
    dsimp only at h
    by_cases h0 : d.exit.isNone = true
    · rw [if_pos h0] at h
      have hn : d.exit = none := by simpa using h0
      cases hc : d.conns[i]? with
      | none => rw [hc] at h; cases h
      | some c =>
        rw [hc] at h
        dsimp only at h
        cases hq : c.thr.running with
        | none => rw [hq] at h; cases h
        | some q =>
          rw [hq] at h
          cases q with
          | ret r =>
            obtain ⟨o, v, b⟩ := r
            simp only [Option.some.injEq, Prod.mk.injEq] at h
            obtain ⟨rfl, rfl⟩ := h
            exact .cons hn (.reply true hc hq) .nil
          | panic =>
            simp only [Option.some.injEq, Prod.mk.injEq] at h
            obtain ⟨rfl, rfl⟩ := h
            exact .cons hn (.panic hc hq) .nil
          | call x k =>
            simp only [Option.some.injEq, Prod.mk.injEq] at h
            obtain ⟨rfl, rfl⟩ := h
            exact .cons hn (.call hc hq) .nil
          | log l k =>
            simp only [Option.some.injEq, Prod.mk.injEq] at h
            obtain ⟨rfl, rfl⟩ := h
            exact .cons hn (.log hc hq) .nil
    · rw [if_neg h0] at h; cases h

def LDaemon.schedule (d : LDaemon ω H) : List LChoice → Option (List (LLabel ω H) × LDaemon ω H)
  | [] => some ([], d)
  | ch :: chs =>
    match d.choose host user ch with
    | none => none
    | some (l, d1) =>
      match LDaemon.schedule d1 chs with
      | none => none
      | some (ls, d2) => some (l ++ ls, d2)

theorem LDaemon.schedule_sound {d d' : LDaemon ω H} {chs : List LChoice} {ls : List (LLabel ω H)} (h : d.schedule host user chs = some (ls, d')) :
    LSteps host user rootPath d ls d' := by
  induction chs generalizing d ls with
  | nil => cases h; exact .nil
  | cons ch chs ih =>
    unfold LDaemon.schedule at h
    split at h
    · cases h
    · rename_i l d1 h1
      split at h
      · cases h
      · rename_i ls1 d2 h2
        cases h
        exact (LDaemon.choose_sound host user rootPath h1).append host user rootPath (ih h2)

/-- two clients have connected -/
def twoClients (w : ω) : LDaemon ω H :=
  { lst := { listeners := [0], calls := [{ ln := 0, pc := .accepting 0, seen := [.conn 0, .conn 1] }], conns := [0, 1] }
    conns := [{ thr := { obj := newObj rootPath } }, { thr := { obj := newObj rootPath } }]
    world := w }

theorem twoClients_run (w : ω) : LRun user host rootPath w [.step (.listener 0), .step (.listener 1), .step (.listener 1)] (twoClients (H := H) rootPath w) := by
  have h1 : LRun user host rootPath w ([] ++ [.step (.listener 0)])
      { lst := { listeners := [0], calls := [{ ln := 0, pc := .accepting 0 }] }, conns := [], world := w } :=
    LRun.init.step rfl (.listener _ [] (.track _ 0 { ln := 0, pc := .entered } rfl rfl) rfl rfl rfl)
  have h2 : LRun user host rootPath w ([.step (.listener 0)] ++ [.step (.listener 1)])
      { lst := { listeners := [0], calls := [{ ln := 0, pc := .accepting 0, seen := [.conn 0] }], conns := [0] }
        conns := [{ thr := { obj := newObj rootPath } }], world := w } :=
    LRun.step h1 rfl (.listener _ [0] (.accept _ 0 { ln := 0, pc := .accepting 0 } 0 (.conn 0) rfl rfl) rfl rfl rfl)
  exact LRun.step h2 rfl (.listener _ [1] (.accept _ 0 { ln := 0, pc := .accepting 0, seen := [.conn 0] } 0 (.conn 1) rfl rfl) rfl rfl rfl)

end

open Mem

/-- a packet is sent and `n` steps are made -/
def asks (i : Nat) (t : Tag) (m : TMsg) (n : Nat) : List LChoice := .send i (m.packet t) :: List.replicate n (.go i)

/-- two clients say hello at the same time; one attaches to a file, opens it and asks for -1 bytes -/
def noisy : List LChoice :=
  [.send 0 (version0.packet 65535), .send 1 (version0.packet 65535), .go 0, .go 1, .go 1, .go 0, .go 0, .go 1] ++
  asks 0 1 (.attach { SFID := 1, AFID := 0xFFFFFFFF, Uname := [], Aname := [102] }) 4 ++ asks 0 2 (.open_ { OFID := 1 }) 4

def deadRead : List LChoice := [.send 1 ((TMsg.clunk { OFID := 9 }).packet 1), .go 1] ++ asks 0 3 (.read { OFID := 1, Len := -1 }) 2

def ran (chs : List LChoice) : Option (List (LLabel World Nat) × LDaemon World Nat) :=
  (twoClients [47, 120] world0).schedule Mem.host [103] chs

theorem ran_run {chs : List LChoice} {ls : List (LLabel World Nat)} {d : LDaemon World Nat} (h : ran chs = some (ls, d)) :
    ∃ ls', LRun [103] Mem.host [47, 120] world0 ls' d :=
  ⟨_, LSteps.run _ _ _ (twoClients_run _ _ _ _) (LDaemon.schedule_sound _ _ _ h)⟩

/-- the lines of two connections are mixed, those of each are a transcript (`C107_transcript`) -/
example : (ran noisy).map (fun r => (r.2.log.map fun x => (x.1, x.2.fmt), r.2.conns.map fun c => (c.thr.running.isNone, c.up.length, c.fin.isNone, c.rd == .hdr))) =
    some ([(0, ">>> Tversion %v %v\n"), (1, ">>> Tversion %v %v\n"), (1, "<<< Rversion %v %v\n"), (0, "<<< Rversion %v %v\n"),
      (0, ">>> Tattach fid %v,  afid %v, uname %v, aname %v\n"), (0, "<<< Rattach %v\n"), (0, ">>> Topen fid %v, mode %v\n"), (0, "<<< Ropen %v %v\n")],
      [(true, 0, true, true), (true, 0, true, true)]) := by decide +kernel

/-- those of `C107_pending`: the other connection is in the middle of a request -/
example : (ran (noisy ++ deadRead)).map (fun r => (r.2.log.drop 8).map fun x => (x.1, x.2.fmt)) =
    some [(1, ">>> Tclunk fid %v\n"), (0, ">>> Tread fid %v, off %v, count %v\n")] := by decide +kernel

/-- the hypotheses of `C107_crash` -/
example : ∃ ls d c, ∃ reqs : List (Tag × TMsg), LRun [103] Mem.host [47, 120] world0 ls d ∧ d.exit = some (.panic 0) ∧ d.conns[0]? = some c ∧
    (∀ r ∈ reqs, r.2.Fits ∧ (r.2.packet r.1).length < 2 ^ 32) ∧ (∀ r, reqs.head? = some r → r.2.ty = MT.Tversion) ∧
    c.all = (reqs.map fun (r : Tag × TMsg) => r.2.packet r.1).flatten ∧ c.fin = none := by
  have h : (ran (noisy ++ deadRead)).isSome := by decide +kernel
  obtain ⟨⟨ls, d⟩, h⟩ := Option.isSome_iff_exists.1 h
  obtain ⟨ls', hr⟩ := ran_run h
  have h1 : (ran (noisy ++ deadRead)).map (fun r => ((match r.2.exit with | some (.panic 0) => true | _ => false),
      r.2.conns[0]?.map fun c => (c.all, c.fin.isNone))) =
    some (true, some (([(65535, version0), (1, TMsg.attach { SFID := 1, AFID := 0xFFFFFFFF, Uname := [], Aname := [102] }),
      (2, TMsg.open_ { OFID := 1 }), (3, TMsg.read { OFID := 1, Len := -1 })].map fun (r : Tag × TMsg) => r.2.packet r.1).flatten, true)) := by decide +kernel
  rw [h] at h1
  simp only [Option.map_some, Option.some.injEq, Prod.mk.injEq, Option.map_eq_some_iff] at h1
  obtain ⟨hx, c, hc, hall, hfin⟩ := h1
  refine ⟨ls', d, c, _, hr, ?_, hc, ?_, ?_, hall, by simpa using hfin⟩
  · generalize d.exit = e at hx
    split at hx
    · rfl
    · cases hx
  · intro r hr
    simp only [List.mem_cons, List.not_mem_nil, or_false] at hr
    rcases hr with rfl | rfl | rfl | rfl <;> exact ⟨by simp [TMsg.Fits, version0, lit] <;> decide, by decide⟩
  · intro r hr
    cases hr
    rfl

end Ninep.Ufs
