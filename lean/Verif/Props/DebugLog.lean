import Verif.Props.Debug
import Verif.Props.Remote

/-
The log of the debugging wrapper (C70).
-/

namespace Ninep.Debugfs
open Spec
variable {σ : Type}

/-! ### what the log should say -/

/-- the argument shows a stat record; of bytes that are not one it may show anything -/
def ShowsDir (b : Bytes) (a : Arg) : Prop := ∃ d, a = .dir d ∧ ∀ d' rest, DirFits d' → b = Spec.dir d' ++ rest → d = d'

/-- the line written for a request (pkg/debugfs/debug.go) -/
def ReqLine (m : TMsg) (l : Line) : Prop :=
  match m with
  | .version p => l = ⟨">>> Tversion %v %v\n", [.num p.TMsize.toNat, .str p.TVersion]⟩
  | .attach p => l = ⟨">>> Tattach fid %v,  afid %v, uname %v, aname %v\n",
      [.num p.SFID.toNat, .num p.AFID.toNat, .str p.Uname, .str p.Aname]⟩
  | .flush p => l = ⟨">>> Tflush tag %v\n", [.num p.OTag.toNat]⟩
  | .walk p => l = ⟨">>> Twalk fid %v, newfid %v, paths %v\n", [.num p.SFID.toNat, .num p.NewFID.toNat, .strs p.Paths]⟩
  | .open_ p => l = ⟨">>> Topen fid %v, mode %v\n", [.num p.OFID.toNat, .num p.Omode.toNat]⟩
  | .create p => l = ⟨">>> Tcreate fid %v, name %v, perm %v, mode %v\n",
      [.num p.OFID.toNat, .str p.Name, .num p.CreatePerm.toNat, .num p.Omode.toNat]⟩
  | .stat p => l = ⟨">>> Tstat fid %v\n", [.num p.OFID.toNat]⟩
  | .wstat p => ∃ a, l = ⟨">>> Twstat fid %v, %v\n", [.num p.OFID.toNat, a]⟩ ∧ ShowsDir p.B a
  | .clunk p => l = ⟨">>> Tclunk fid %v\n", [.num p.OFID.toNat]⟩
  | .remove p => l = ⟨">>> Tremove fid %v\n", [.num p.OFID.toNat]⟩
  | .read p => l = ⟨">>> Tread fid %v, off %v, count %v\n", [.num p.OFID.toNat, .num p.Off.toNat, .num p.Len.toInt]⟩
  | .write p => l = ⟨">>> Twrite fid %v, off %v, count %v\n", [.num p.OFID.toNat, .num p.Off.toNat, .num p.Data.length]⟩

/-- the line written for a reply -/
def RepLine (r : Except GoString RMsg) (l : Line) : Prop :=
  match r with
  | .error e => l = ⟨"<<< Error %v\n", [.str e]⟩
  | .ok (.error _) => False
  | .ok (.version p) => l = ⟨"<<< Rversion %v %v\n", [.num p.RMsize.toNat, .str p.RVersion]⟩
  | .ok (.attach p) => l = ⟨"<<< Rattach %v\n", [.qid p.QID]⟩
  | .ok (.flush _) => l = ⟨"<<< Rflush\n", []⟩
  | .ok (.walk p) => l = ⟨"<<< Rwalk %v\n", [.qids p.QIDs]⟩
  | .ok (.open_ p) => l = ⟨"<<< Ropen %v %v\n", [.qid p.OQID, .num p.IOUnit.toNat]⟩
  | .ok (.create p) => l = ⟨"<<< Rcreate %v %v\n", [.qid p.OQID, .num p.IOUnit.toNat]⟩
  | .ok (.stat p) => ∃ a, l = ⟨"<<< Rstat %v\n", [a]⟩ ∧ ShowsDir p.B a
  | .ok (.wstat _) => l = ⟨"<<< Rwstat\n", []⟩
  | .ok (.clunk _) => l = ⟨"<<< Rclunk\n", []⟩
  | .ok (.remove _) => l = ⟨"<<< Rremove\n", []⟩
  | .ok (.read p) => l = ⟨"<<< Rread %v\n", [.num p.Data.length]⟩
  | .ok (.write p) => l = ⟨"<<< Rwrite %v\n", [.num p.RLen.toInt]⟩

/-- the log of a sequence of requests and replies -/
def Transcript : List TMsg → List (Except GoString RMsg) → List Line → Prop
  | [], [], log => log = []
  | m :: ms, r :: rs, log => ∃ a b log', log = a :: b :: log' ∧ ReqLine m a ∧ RepLine r b ∧ Transcript ms rs log'
  | _, _, _ => False

/-- What can be seen of a request in the log: all of it, except that of the data of a write only the length
is shown, and of a wstat what is not a stat record. -/
def SameInLog : TMsg → TMsg → Prop
  | .write p, .write q => p.OFID = q.OFID ∧ p.Off = q.Off ∧ p.Data.length = q.Data.length
  | .wstat p, .wstat q => p.OFID = q.OFID ∧ ∀ d e, DirFits d → DirFits e → p.B = Spec.dir d → q.B = Spec.dir e → d = e
  | m, m' => m = m'

/-! ### proofs -/

theorem unmarshaldir_shows {b : Bytes} {d t e b1} (h : unmarshaldir (Buffer.ofBytes b) = .done d t e b1) :
    ShowsDir b (.dir d) := by
  refine ⟨d, rfl, fun d' rest hd hb => ?_⟩
  subst hb
  have := unmarshaldir_fwd d' hd [] rest []
  rw [show Buffer.ofBytes (Spec.dir d' ++ rest) = ⟨[], Spec.dir d' ++ rest, []⟩ from rfl] at h
  rw [this] at h
  cases h; rfl

/-- the two lines of a request -/
theorem log_step (ns : NineServer σ) (m : TMsg) (s : σ) (log : List Line) :
    match call (debugServer ns) m (s, log) with
    | .panic => True
    | .ok s' r => ∃ a b, s'.2 = log ++ [a, b] ∧ ReqLine m a ∧ RepLine (.ok r) b
    | .err s' e => ∃ a b, s'.2 = log ++ [a, b] ∧ ReqLine m a ∧ RepLine (.error e) b := by
  have key : ∀ {α : Type} (g : α → RMsg) (fmt args) (f : σ → NRes σ α) (rfmt) (rargs : α → List Arg),
      ReqLine m ⟨fmt, args⟩ → (∀ a, RepLine (.ok (g a)) ⟨rfmt, rargs a⟩) →
      match mapRes g (around fmt args f rfmt rargs (s, log)) with
      | .panic => True
      | .ok s' r => ∃ a b, s'.2 = log ++ [a, b] ∧ ReqLine m a ∧ RepLine (.ok r) b
      | .err s' e => ∃ a b, s'.2 = log ++ [a, b] ∧ ReqLine m a ∧ RepLine (.error e) b := by
    intro α g fmt args f rfmt rargs h1 h2
    have := around_log fmt args f rfmt rargs (s, log)
    generalize around fmt args f rfmt rargs (s, log) = r at this
    cases r
    · trivial
    · exact ⟨_, _, this, h1, h2 _⟩
    · exact ⟨_, _, this, h1, rfl⟩
  cases m with
  | stat p =>
    simp only [call, debugServer, rstat]
    cases ns.Rstat p.OFID s with
    | panic => trivial
    | err s' e => exact ⟨_, _, by simp [printf], rfl, rfl⟩
    | ok s' b =>
      dsimp only
      cases hu : unmarshaldir (Buffer.ofBytes b) with
      | panic => trivial
      | done d t e b1 =>
        exact ⟨_, _, by simp [printf], rfl, _, rfl, unmarshaldir_shows hu⟩
  | wstat p =>
    simp only [call, debugServer, rwstat]
    cases hu : unmarshaldir (Buffer.ofBytes p.B) with
    | panic => trivial
    | done d t e b1 =>
      exact key _ _ _ _ _ _ ⟨_, rfl, unmarshaldir_shows hu⟩ fun _ => rfl
  | _ => exact key _ _ _ _ _ _ rfl fun _ => rfl

open Client in
/-- **C70** The log is a transcript: whatever is asked of the wrapped file server, the log grows by two lines
for each request, in order: the request with its arguments, and the values or the error of the reply. -/
theorem C70_transcript (ns : NineServer σ) (ms : List TMsg) (s s' : σ) (log log' : List Line) (outs : List (Except GoString RMsg))
    (h : runCalls (debugServer ns) ms (s, log) = some ((s', log'), outs)) :
    ∃ l, log' = log ++ l ∧ Transcript ms outs l := by
  induction ms generalizing s log outs with
  | nil => cases h; exact ⟨[], by simp, rfl⟩
  | cons m ms ih =>
    have hs := log_step ns m s log
    unfold runCalls at h
    generalize call (debugServer ns) m (s, log) = r at hs h
    cases r with
    | panic => cases h
    | ok x r =>
      obtain ⟨x, lx⟩ := x
      obtain ⟨a, b, h1, h2, h3⟩ := hs
      dsimp only at h h1
      subst h1
      generalize hq : runCalls (debugServer ns) ms (x, _) = q at h
      cases q with
      | none => cases h
      | some q =>
        obtain ⟨⟨y, ly⟩, os⟩ := q
        cases h
        obtain ⟨l, h4, h5⟩ := ih _ _ _ hq
        exact ⟨a :: b :: l, by rw [h4]; simp, a, b, l, rfl, h2, h3, h5⟩
    | err x e =>
      obtain ⟨x, lx⟩ := x
      obtain ⟨a, b, h1, h2, h3⟩ := hs
      dsimp only at h h1
      subst h1
      generalize hq : runCalls (debugServer ns) ms (x, _) = q at h
      cases q with
      | none => cases h
      | some q =>
        obtain ⟨⟨y, ly⟩, os⟩ := q
        cases h
        obtain ⟨l, h4, h5⟩ := ih _ _ _ hq
        exact ⟨a :: b :: l, by rw [h4]; simp, a, b, l, rfl, h2, h3, h5⟩

theorem num_inj32 {a b : UInt32} (h : (a.toNat : Int) = b.toNat) : a = b := UInt32.toNat_inj.1 (by omega)

/-- the format of a request line -/
def reqFmt : TMsg → String
  | .version _ => ">>> Tversion %v %v\n"
  | .attach _ => ">>> Tattach fid %v,  afid %v, uname %v, aname %v\n"
  | .flush _ => ">>> Tflush tag %v\n"
  | .walk _ => ">>> Twalk fid %v, newfid %v, paths %v\n"
  | .open_ _ => ">>> Topen fid %v, mode %v\n"
  | .create _ => ">>> Tcreate fid %v, name %v, perm %v, mode %v\n"
  | .stat _ => ">>> Tstat fid %v\n"
  | .wstat _ => ">>> Twstat fid %v, %v\n"
  | .clunk _ => ">>> Tclunk fid %v\n"
  | .remove _ => ">>> Tremove fid %v\n"
  | .read _ => ">>> Tread fid %v, off %v, count %v\n"
  | .write _ => ">>> Twrite fid %v, off %v, count %v\n"

theorem reqLine_fmt {m : TMsg} {l : Line} (h : ReqLine m l) : l.fmt = reqFmt m := by
  cases m with
  | wstat p => obtain ⟨a, rfl, _⟩ := h; rfl
  | _ => cases h; rfl

theorem reqLine_inj (m m' : TMsg) (l : Line) (h : ReqLine m l) (h' : ReqLine m' l) : SameInLog m m' := by
  have f := (reqLine_fmt h).symm.trans (reqLine_fmt h')
  cases m <;> cases m' <;> simp only [reqFmt] at f
  all_goals try exact absurd f (by decide)
  all_goals rename_i p q
  case wstat =>
    obtain ⟨a, h, d, rfl, hd⟩ := h
    obtain ⟨a', h', d', rfl, hd'⟩ := h'
    have e := Eq.trans (Eq.symm h) h'
    simp only [Line.mk.injEq, List.cons.injEq, Arg.num.injEq, Arg.dir.injEq, true_and, and_true] at e
    refine ⟨num_inj32 e.1, fun x y hx hy hpx hqy => ?_⟩
    rw [← hd x [] hx (by simp [hpx]), ← hd' y [] hy (by simp [hqy]), e.2]
  case write =>
    have e := Eq.trans (Eq.symm h) h'
    simp only [Line.mk.injEq, List.cons.injEq, Arg.num.injEq, true_and, and_true] at e
    exact ⟨num_inj32 e.1, UInt64.toNat_inj.1 (by omega), by omega⟩
  all_goals
    have e := Eq.trans (Eq.symm h) h'
    simp only [Line.mk.injEq, List.cons.injEq, Arg.num.injEq, Arg.str.injEq, Arg.strs.injEq, true_and, and_true] at e
    cases p; cases q
    simp only at e
    simp only [Int.ofNat_inj, Int32.toInt_inj, UInt64.toNat_inj, UInt32.toNat_inj, UInt16.toNat_inj, UInt8.toNat_inj] at e
    unfold SameInLog
    simp only [TMsg.version.injEq, TMsg.attach.injEq, TMsg.flush.injEq, TMsg.walk.injEq, TMsg.open_.injEq, TMsg.create.injEq,
      TMsg.clunk.injEq, TMsg.remove.injEq, TMsg.stat.injEq, TMsg.read.injEq,
      TversionPkt.mk.injEq, TattachPkt.mk.injEq, TflushPkt.mk.injEq, TwalkPkt.mk.injEq, TopenPkt.mk.injEq, TcreatePkt.mk.injEq,
      TclunkPkt.mk.injEq, TremovePkt.mk.injEq, TstatPkt.mk.injEq, TreadPkt.mk.injEq]
    exact e

/-- **C70** The log is unambiguous: two sequences of requests with the same log agree request by request,
up to the data of writes and to wstats with something that is not a stat record. -/
theorem C70_unambiguous (ms ms' : List TMsg) (rs rs' : List (Except GoString RMsg)) (log : List Line)
    (h : Transcript ms rs log) (h' : Transcript ms' rs' log) :
    ms.length = ms'.length ∧ ∀ (i : Nat) m m', ms[i]? = some m → ms'[i]? = some m' → SameInLog m m' := by
  induction ms generalizing ms' rs rs' log with
  | nil =>
    cases rs with
    | cons => exact h.elim
    | nil =>
      cases h
      cases ms' with
      | nil => exact ⟨rfl, fun i m m' h => by simp at h⟩
      | cons m ms' =>
        cases rs' with
        | nil => exact h'.elim
        | cons => obtain ⟨a, b, l, he, _⟩ := h'; cases he
  | cons m ms ih =>
    cases rs with
    | nil => exact h.elim
    | cons r rs =>
      obtain ⟨a, b, l, rfl, h1, h2, h3⟩ := h
      cases ms' with
      | nil =>
        cases rs' with
        | nil => cases h'
        | cons => exact h'.elim
      | cons m' ms' =>
        cases rs' with
        | nil => exact h'.elim
        | cons r' rs' =>
          obtain ⟨a', b', l', he, h1', h2', h3'⟩ := h'
          cases he
          obtain ⟨i1, i2⟩ := ih _ _ _ _ h3 h3'
          refine ⟨by simp [i1], fun i x y hx hy => ?_⟩
          cases i with
          | zero => cases hx; cases hy; exact reqLine_inj _ _ _ h1 h1'
          | succ i => exact i2 i x y hx hy

/-- C70: an attach and a failing walk -/
example : ∃ l, Client.runCalls (debugServer garbage) [.attach { SFID := 1, AFID := 7, Uname := [97] }, .walk { SFID := 1, NewFID := 2, Paths := [[98]] }]
      (5, []) = some ((6, l), [.ok (.attach {}), .error (lit "no")]) ∧
    l = [⟨">>> Tattach fid %v,  afid %v, uname %v, aname %v\n", [.num 1, .num 7, .str [97], .str []]⟩, ⟨"<<< Rattach %v\n", [.qid {}]⟩,
      ⟨">>> Twalk fid %v, newfid %v, paths %v\n", [.num 1, .num 2, .strs [[98]]]⟩, ⟨"<<< Error %v\n", [.str (lit "no")]⟩] ∧
    Transcript [.attach { SFID := 1, AFID := 7, Uname := [97] }, .walk { SFID := 1, NewFID := 2, Paths := [[98]] }]
      [.ok (.attach {}), .error (lit "no")] l :=
  ⟨_, rfl, rfl, _, _, _, rfl, rfl, rfl, _, _, _, rfl, rfl, rfl, rfl⟩

end Ninep.Debugfs
