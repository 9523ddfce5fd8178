import Verif.Props.Conns
import Verif.Props.CodecPanic

/-!
# One client and the service of the others (C88)

A panic in the goroutine of one connection ends the process and with it all connections.  The theorems here
say exactly which packets do that.
-/

namespace Ninep.Ufs
open Spec Debugfs

section
variable {ω H : Type} (host : Host ω H) (user rootPath : GoString) (debug : Bool)

/-- every request type is that of a message -/
theorem ty_of_request {t : MType} (h : t.toNat ∈ requestTypes) : ∃ m : TMsg, m.ty = t := by
  have : ∀ n ∈ requestTypes, ∃ m : TMsg, m.ty.toNat = n := by
    intro n hn
    simp only [requestTypes, List.mem_cons, List.not_mem_nil, or_false] at hn
    rcases hn with rfl | rfl | rfl | rfl | rfl | rfl | rfl | rfl | rfl | rfl | rfl | rfl
    · exact ⟨.version {}, rfl⟩
    · exact ⟨.attach {}, rfl⟩
    · exact ⟨.flush {}, rfl⟩
    · exact ⟨.walk {}, rfl⟩
    · exact ⟨.open_ {}, rfl⟩
    · exact ⟨.create {}, rfl⟩
    · exact ⟨.read {}, rfl⟩
    · exact ⟨.write {}, rfl⟩
    · exact ⟨.clunk {}, rfl⟩
    · exact ⟨.remove {}, rfl⟩
    · exact ⟨.stat {}, rfl⟩
    · exact ⟨.wstat {}, rfl⟩
  obtain ⟨m, hm⟩ := this _ h
  exact ⟨m, UInt8.toNat_inj.1 hm⟩

theorem ty_request (m : TMsg) : m.ty.toNat ∈ requestTypes := by
  cases m with
  | version | attach | flush | walk | open_ | create | read | write | clunk | remove | stat | wstat =>
    show _ ∈ requestTypes
    simp only [TMsg.ty, TMsg.type, requestTypes]
    decide

/-- when a dispatch panics: the decoder does, or the method of the file server does -/
theorem dispatch_panic_iff {σ : Type} (ns : NineServer σ) (s : Server σ) (b : Buffer) (t : MType) (hb : 2 ≤ b.unread.length) :
    dispatch ns s b t = .panic ↔ (s.Versioned = true ∨ t = MT.Tversion) ∧ ∃ m : TMsg, m.ty = t ∧
      (decT m b = .panic ∨ ∃ m' tag e b', decT m b = .done m' tag e b' ∧ call ns m' s.ns = .panic) := by
  by_cases hv : s.Versioned = true ∨ t = MT.Tversion
  · by_cases ht : t.toNat ∈ requestTypes
    · obtain ⟨m, rfl⟩ := ty_of_request ht
      have hh : handle ns { s with Versioned := true } (decT m b) = .panic ↔
          (decT m b = .panic ∨ ∃ m' tag e b', decT m b = .done m' tag e b' ∧ call ns m' s.ns = .panic) := by
        unfold handle
        cases hd : decT m b with
        | panic => simp
        | done m' tag e b' =>
          dsimp only
          cases hc : call ns m' s.ns with
          | panic => simp [hc]
          | ok s' r => simp [hc]
          | err s' r => simp [hc]
      rw [dispatch_request ns m s b hv, hh]
      constructor
      · intro h
        exact ⟨hv, m, rfl, h⟩
      · rintro ⟨-, m1, hm1, h⟩
        have : decT m1 = decT m := by
          have e1 := decodeT_ty m1
          rw [hm1, decodeT_ty m] at e1
          exact (Option.some.inj e1).symm
        rw [this] at h
        exact h
    · have hne : t ≠ MT.Tversion := by rintro rfl; exact ht (by decide)
      have hv' : s.Versioned = true := hv.resolve_right hne
      rw [dispatch_unsupported ns s b t hv' ht hb]
      simp only [reduceCtorEq, false_iff]
      rintro ⟨-, m, rfl, -⟩
      exact ht (ty_request m)
  · have h1 : s.Versioned = false := by
      cases h : s.Versioned with
      | false => rfl
      | true => exact absurd (.inl h) hv
    rw [dispatch_unversioned ns s b t h1 (fun h => hv (.inr h)) hb]
    simp [hv]

/-- the debugging wrapper does not panic by itself, nor does it save the process -/
theorem dispatchIn_none (w : ω) (log : List Line) (o : Obj H) (v : Bool) (b : Buffer) (t : MType) :
    dispatchIn host user debug w log o v b t = none ↔ dispatch (ufs host user) ⟨o.into w, v⟩ b t = .panic := by
  unfold dispatchIn
  cases debug with
  | false =>
    simp only [Bool.false_eq_true, if_false]
    cases dispatch (ufs host user) ⟨o.into w, v⟩ b t <;> simp
  | true =>
    simp only [if_true]
    have hsim := dispatch_sim (C61_transparent (ufs host user)) (s := ⟨(o.into w, log), v⟩) (t := ⟨o.into w, v⟩) ⟨rfl, rfl⟩ b t
    cases h1 : dispatch (debugServer (ufs host user)) ⟨(o.into w, log), v⟩ b t with
    | panic =>
      rw [h1] at hsim
      cases h2 : dispatch (ufs host user) ⟨o.into w, v⟩ b t with
      | panic => simp
      | done s b => rw [h2] at hsim; exact hsim.elim
    | done s1 b1 =>
      rw [h1] at hsim
      cases h2 : dispatch (ufs host user) ⟨o.into w, v⟩ b t with
      | panic => rw [h2] at hsim; exact hsim.elim
      | done s b => simp

/-- The packets that end the process, for a connection with fids `files`: a Twrite or Twstat whose count is larger
than what is left of the packet and of the memory behind it, and a Tread whose count is negative, of a fid that is
open and no directory.  `body` is what follows the type. -/
def Deadly (files : FID → Option (File H)) (t : MType) (body spare : Bytes) : Prop :=
  (∃ m pos w, TMsg.ty m = t ∧ payloadAt (.inl m) = some (pos, w) ∧ pos < body.length ∧
    body.length - (pos + w) + spare.length < payloadCount (.inl m) body) ∨
  (t = MT.Tread ∧ ∃ q tag e b' f, decT (.read {}) ⟨[], body, spare⟩ = .done (.read q) tag e b' ∧
    files q.OFID = some f ∧ f.file ≠ none ∧ f.qid.Typ &&& QTDIR = 0 ∧ q.Len.toInt < 0)

theorem decT_eq_of_ty {m m' : TMsg} (h : m.ty = m'.ty) : decT m = decT m' := by
  have := decodeT_ty m
  rw [h, decodeT_ty m'] at this
  exact (Option.some.inj this).symm

theorem dispatch_deadly (s : State ω H) (v : Bool) (t : MType) (body spare : Bytes) (hb : 2 ≤ body.length) :
    dispatch (ufs host user) ⟨s, v⟩ ⟨[], body, spare⟩ t = .panic ↔
      (v = true ∨ t = MT.Tversion) ∧ Deadly s.files t body spare := by
  have hdec (m : TMsg) : decT m ⟨[], body, spare⟩ = .panic ↔ ∃ pos w, payloadAt (.inl m) = some (pos, w) ∧ pos < body.length ∧
      body.length - (pos + w) + spare.length < payloadCount (.inl m) body := by
    have := C11_panic_iff (.inl m) ⟨[], body, spare⟩
    rw [show decAny (.inl m) ⟨[], body, spare⟩ = (decT m ⟨[], body, spare⟩).map .inl from rfl, Unm.map_panic] at this
    exact this
  rw [dispatch_panic_iff _ _ _ _ hb]
  refine and_congr Iff.rfl ⟨?_, ?_⟩
  · rintro ⟨m, rfl, h | ⟨m', tag, e, b', hd, hc⟩⟩
    · obtain ⟨pos, w, h⟩ := (hdec m).1 h
      exact .inl ⟨m, pos, w, rfl, h⟩
    · right
      obtain ⟨q, f, rfl, hf, h1, h2, h3⟩ := (C52_panic_partial host user m' s).1 hc
      have hty := decT_ty m hd
      refine ⟨hty.symm, q, tag, e, b', f, ?_, hf, h1, h2, h3⟩
      rw [decT_eq_of_ty (m := .read {}) (m' := m) hty, hd]
  · rintro (⟨m, pos, w, rfl, h⟩ | ⟨rfl, q, tag, e, b', f, hd, hf, h1, h2, h3⟩)
    · exact ⟨m, rfl, .inl ((hdec m).2 ⟨pos, w, h⟩)⟩
    · exact ⟨.read {}, rfl, .inr ⟨_, _, _, _, hd, (C52_panic_partial host user _ s).2 ⟨q, f, rfl, hf, h1, h2, h3⟩⟩⟩

/-- **C88**, exactly: a packet ends the process, and with it the service of all connections, if and only if it comes on
a connection that is alive and has sent a Tversion, and is deadly for the fids of that connection: which fids other
connections have, what they did, the log and the world do not matter.  (The full statement, that no packet does, is
false: `C88_counterexample`.) -/
theorem C88_crash_partial {w0 : ω} {as : List Act} {p : Proc ω H} (hr : Run host user rootPath debug w0 as p)
    (i : Nat) (t : MType) (body spare : Bytes) (written : Bool) (hb : 2 ≤ body.length) :
    act host user rootPath debug p (.packet i t body spare written) = none ↔
      ∃ c o, p.view i = some (c, some o) ∧ c.dead = false ∧ (c.Versioned = true ∨ t = MT.Tversion) ∧
        Deadly o.files t body spare := by
  have hsep := (run_separate host user rootPath debug hr).1
  unfold act Proc.view
  dsimp only
  cases hc : p.conns[i]? with
  | none => simp
  | some c =>
    have hlt := hsep i c hc
    have ho : p.heap[c.ns]? = some p.heap[c.ns] := List.getElem?_eq_getElem hlt
    dsimp only
    cases hdead : c.dead with
    | true =>
      simp only [if_true, reduceCtorEq, Option.map_some, Option.some.injEq, Prod.mk.injEq, false_iff]
      rintro ⟨c', o, ⟨rfl, -⟩, h, -⟩
      rw [hdead] at h; cases h
    | false =>
      simp only [Bool.false_eq_true, if_false]
      rw [ho]
      dsimp only
      have key : dispatchIn host user debug p.world p.log p.heap[c.ns] c.Versioned ⟨[], body, spare⟩ t = none ↔
          (c.Versioned = true ∨ t = MT.Tversion) ∧ Deadly (p.heap[c.ns]).files t body spare := by
        rw [dispatchIn_none, dispatch_deadly _ _ _ _ _ _ _ hb]
        exact Iff.rfl
      cases hd : dispatchIn host user debug p.world p.log p.heap[c.ns] c.Versioned ⟨[], body, spare⟩ t with
      | none =>
        simp only [true_iff]
        obtain ⟨h1, h2⟩ := key.1 hd
        exact ⟨c, _, by rw [Option.map_some, ho], hdead, h1, h2⟩
      | some x =>
        obtain ⟨w, log, o, v, b⟩ := x
        simp only [reduceCtorEq, false_iff]
        rintro ⟨c', o', h, h0, h1, h2⟩
        simp only [Option.map_some, Option.some.injEq, Prod.mk.injEq] at h
        obtain ⟨rfl, h⟩ := h
        rw [ho] at h
        cases h
        rw [key.2 ⟨h1, h2⟩] at hd
        cases hd

/-- C88: other actions never end the process -/
theorem C88_quiet {p : Proc ω H} (i : Nat) :
    act host user rootPath debug p .accept ≠ none ∧ act host user rootPath debug p (.hangup i) ≠ none := by
  refine ⟨by simp [act], ?_⟩
  unfold act
  dsimp only
  split <;> simp

/-- C88: a well-formed request, whatever lies behind it in memory, ends the process only if it is a read with a
negative count, of an open fid of its own connection that is no directory -/
theorem C88_well_formed {w0 : ω} {as : List Act} {p : Proc ω H} (hr : Run host user rootPath debug w0 as p)
    (i : Nat) (m : TMsg) (hm : m.Fits) (tag : Tag) (spare : Bytes) (written : Bool) :
    act host user rootPath debug p (.packet i m.ty (m.body tag) spare written) = none →
      ∃ q c o f, m = .read q ∧ p.view i = some (c, some o) ∧ c.Versioned = true ∧ o.files q.OFID = some f ∧ f.file ≠ none ∧
        f.qid.Typ &&& QTDIR = 0 ∧ q.Len.toInt < 0 := by
  intro h
  have hlen : 2 ≤ (m.body tag).length := by unfold TMsg.body; simp
  obtain ⟨c, o, hv, hdead, hver, hdl⟩ := (C88_crash_partial host user rootPath debug hr i _ _ _ _ hlen).1 h
  have hfwd := (lawsT m).fwd hm [] spare tag
  rcases hdl with ⟨m1, pos, w, hty, h1, h2, h3⟩ | ⟨hty, q, tag', e, b', f, hd, hf, h1, h2, h3⟩
  · exfalso
    have := (C11_panic_iff (.inl m1) ⟨[], m.body tag, spare⟩).2 ⟨pos, w, h1, h2, h3⟩
    rw [show decAny (.inl m1) ⟨[], m.body tag, spare⟩ = (decT m1 ⟨[], m.body tag, spare⟩).map .inl from rfl, Unm.map_panic,
      decT_eq_of_ty hty, hfwd] at this
    cases this
  · rw [decT_eq_of_ty (m := .read {}) (m' := m) hty.symm, hfwd] at hd
    injection hd with h4 h5 h6 h7
    subst h4
    exact ⟨q, c, o, f, rfl, hv, hver.resolve_right (by show MT.Tread ≠ MT.Tversion; decide), hf, h1, h2, h3⟩

end

open Mem

/-- **C88 is false**: two clients, each with fids of its own.  One reads with count -1, and the process, which has just
answered the other one, is gone.  So it is if a Twrite with a count that is too large arrives. -/
theorem C88_counterexample :
    let start := twoConns ++ [pkt 1 walk1, pkt 1 open1]
    (acts { world := demo.world } (start ++ [pkt 0 attach0])).isSome ∧
    acts { world := demo.world } (start ++ [pkt 1 (.read { OFID := 1, Off := 0, Len := -1 })]) = none ∧
    acts { world := demo.world } (start ++ [.packet 1 MT.Twrite ([7, 0] ++ [1, 0, 0, 0] ++ List.replicate 8 0 ++ [255, 0, 0, 0]) [] true]) = none := by
  decide +kernel

/-- C88: the same packets on a connection that has no such fid, or on one that is dead, are harmless -/
example : (acts { world := demo.world } (twoConns ++ [pkt 1 walk1, pkt 1 open1, pkt 0 (.read { OFID := 1, Off := 0, Len := -1 }),
    .hangup 1, pkt 1 (.read { OFID := 1, Off := 0, Len := -1 })])).isSome := by decide +kernel

end Ninep.Ufs
