import Verif.Lemmas.Threads
import Verif.Props.Conns
/-
Requests of different connections that overlap in time (C79, C80).
-/

namespace Ninep.Ufs
open Spec

section
variable {ω H : Type} (host : Host ω H) (user rootPath : GoString)

/-- the host calls made for connection `i`, with their answers -/
def callsOf (i : Nat) : List (Label ω H) → List (Ev H)
  | [] => []
  | .call j e :: ls => if j = i then e :: callsOf i ls else callsOf i ls
  | _ :: ls => callsOf i ls

/-- what happened on connection `i`: the number of connections accepted, the packet being worked on, and the
actions completed so far, for a process that has only this connection -/
structure Own where
  n : Nat := 0
  cur : Option (MType × Bytes × Bytes) := none
  acts : List Act := []

/-- one step more -/
def Own.step (i : Nat) (s : Own) : Label ω H → Own
  | .accept => { s with n := s.n + 1, acts := if s.n = i then s.acts ++ [.accept] else s.acts }
  | .start j t body spare => if j = i then { s with cur := some (t, body, spare) } else s
  | .reply j written =>
    if j = i then
      match s.cur with
      | some (t, body, spare) => { s with cur := none, acts := s.acts ++ [.packet 0 t body spare written] }
      | none => s
    else s
  | .hangup j => if j = i then { s with acts := s.acts ++ [.hangup 0] } else s
  | .call _ _ => s
  | .other _ => s

/-- the actions on connection `i`, each one in the place where it was completed -/
def ownActs (i : Nat) (ls : List (Label ω H)) : List Act := (ls.foldl (Own.step i) {}).acts

/-- the connection as Ufs/Conns.lean sees it -/
def Thr.conn (c : Thr H) : Conn := { ns := 0, Versioned := c.Versioned, dead := c.dead, out := c.out }

theorem callsOf_append (i : Nat) (as bs : List (Label ω H)) : callsOf i (as ++ bs) = callsOf i as ++ callsOf i bs := by
  induction as with
  | nil => rfl
  | cons a as ih =>
    cases a <;> simp only [List.cons_append, callsOf, ih]
    split <;> simp

/-- what is known about connection `i` after the steps `ls` -/
def Serial (i : Nat) (ls : List (Label ω H)) (c : Thr H) : Prop :=
  ∃ tr0 tr1, callsOf i ls = tr0 ++ tr1 ∧
    (∀ rest, ∃ p1, Run (scripted H) user rootPath false ⟨tr0 ++ rest, []⟩ (ownActs i ls) p1 ∧
      p1.world = ⟨rest, tr0⟩ ∧ p1.heap = [c.obj] ∧ p1.conns = [c.conn]) ∧
    (c.running = none → tr1 = [] ∧ (ls.foldl (Own.step i) {}).cur = none) ∧
    ∀ q, c.running = some q → c.dead = false ∧ ∃ t body spare, (ls.foldl (Own.step i) {}).cur = some (t, body, spare) ∧
      Prog.Path (pdispatch user c.obj c.Versioned ⟨[], body, spare⟩ t) tr1 q

theorem serial_inv {w0 : ω} {ls : List (Label ω H)} {p : TProc ω H} (hr : TRun host user rootPath w0 ls p) (i : Nat) :
    (ls.foldl (Own.step i) {}).n = p.thr.length ∧
    (p.thr.length ≤ i → ownActs i ls = [] ∧ (ls.foldl (Own.step i) {}).cur = none ∧ callsOf i ls = []) ∧
    ∀ c, p.thr[i]? = some c → Serial user rootPath i ls c := by
  induction hr with
  | init => exact ⟨rfl, fun _ => ⟨rfl, rfl, rfl⟩, fun c h => by simp at h⟩
  | @step ls p l p' _ hs ih =>
    obtain ⟨hn, hlt, hc⟩ := ih
    -- a step of another connection, or of none
    have frame : ((ls ++ [l]).foldl (Own.step i) {}) = ls.foldl (Own.step i) {} → callsOf i [l] = [] →
        p'.thr.length = p.thr.length → p'.thr[i]? = p.thr[i]? →
        ((ls ++ [l]).foldl (Own.step i) {}).n = p'.thr.length ∧
        (p'.thr.length ≤ i → ownActs i (ls ++ [l]) = [] ∧ ((ls ++ [l]).foldl (Own.step i) {}).cur = none ∧ callsOf i (ls ++ [l]) = []) ∧
        ∀ c, p'.thr[i]? = some c → Serial user rootPath i (ls ++ [l]) c := by
      intro h1 h2 h3 h4
      unfold Serial ownActs
      rw [h1, callsOf_append, h2, List.append_nil, h3, h4]
      exact ⟨hn, hlt, hc⟩
    have hset : ∀ {j : Nat} {d d' : Thr H}, p.thr[j]? = some d → j ≠ i → (p.thr.set j d')[i]? = p.thr[i]? := by
      intro j d d' _ hne
      exact List.getElem?_set_ne hne
    -- the same connection
    have self : ∀ {d d' : Thr H}, p.thr[i]? = some d → p'.thr = p.thr.set i d' →
        ((ls ++ [l]).foldl (Own.step i) {}).n = (ls.foldl (Own.step i) {}).n → Serial user rootPath i (ls ++ [l]) d' →
        ((ls ++ [l]).foldl (Own.step i) {}).n = p'.thr.length ∧
        (p'.thr.length ≤ i → ownActs i (ls ++ [l]) = [] ∧ ((ls ++ [l]).foldl (Own.step i) {}).cur = none ∧ callsOf i (ls ++ [l]) = []) ∧
        ∀ c, p'.thr[i]? = some c → Serial user rootPath i (ls ++ [l]) c := by
      intro d d' hd hp h1 h2
      have hlen : i < p.thr.length := (List.getElem?_eq_some_iff.1 hd).1
      rw [hp, List.length_set]
      refine ⟨h1.trans hn, fun h => absurd h (by omega), fun c h => ?_⟩
      rw [List.getElem?_set_self hlen] at h
      cases h
      exact h2
    cases hs with
    | accept =>
      have hl : ((ls ++ [Label.accept]).foldl (Own.step i) {}) = Own.step i (ls.foldl (Own.step i) {}) (Label.accept (ω := ω) (H := H)) := by
        rw [List.foldl_append]; rfl
      have hcalls : callsOf i (ls ++ [Label.accept]) = callsOf i ls := by rw [callsOf_append]; simp [callsOf]
      unfold Serial ownActs
      rw [hl, hcalls]
      simp only [Own.step, List.length_append, List.length_cons, List.length_nil]
      refine ⟨by omega, fun h => ?_, fun c h => ?_⟩
      · rw [if_neg (by omega)]
        exact hlt (by omega)
      · rw [List.getElem?_append] at h
        split at h
        · rename_i hi
          rw [if_neg (by omega)]
          exact hc c h
        · rename_i hi
          obtain ⟨h1, he⟩ := List.getElem?_eq_some_iff.1 h
          have h0 : i = p.thr.length := by simp at h1; omega
          subst h0
          simp only [Nat.sub_self, List.getElem_cons_zero] at he
          subst he
          obtain ⟨ha, hcur, hcs⟩ := hlt (Nat.le_refl _)
          rw [if_pos (by omega), hcs, hcur]
          unfold ownActs at ha
          rw [ha]
          refine ⟨[], [], rfl, fun rest => ?_, fun _ => ⟨rfl, rfl⟩, fun q hq => by cases hq⟩
          exact ⟨_, .act .init rfl, rfl, rfl, rfl⟩
    | @start j d t body spare hd hdead hrun =>
      by_cases hji : j = i
      · subst hji
        obtain ⟨tr0, tr1, h1, h2, h3, _⟩ := hc d hd
        refine self hd rfl (by simp [List.foldl_append, Own.step]) ?_
        obtain ⟨rfl, hcur⟩ := h3 hrun
        unfold Serial ownActs at *
        rw [callsOf_append, h1]
        simp only [List.foldl_append, List.foldl_cons, List.foldl_nil, Own.step, if_true]
        refine ⟨tr0, [], by simp [callsOf], h2, fun h => by (cases h), ?_⟩
        rintro q hq
        cases hq
        exact ⟨hdead, t, body, spare, rfl, .nil⟩
      · exact frame (by simp [List.foldl_append, Own.step, hji]) (by simp [callsOf]) (by simp) (hset hd hji)
    | @call j d x k hd hrun =>
      by_cases hji : j = i
      · subst hji
        obtain ⟨tr0, tr1, h1, h2, _, h4⟩ := hc d hd
        refine self hd rfl (by simp [List.foldl_append, Own.step]) ?_
        obtain ⟨hdead, t, body, spare, hcur, hpath⟩ := h4 _ hrun
        unfold Serial ownActs at *
        rw [callsOf_append, h1]
        simp only [List.foldl_append, List.foldl_cons, List.foldl_nil, Own.step]
        refine ⟨tr0, tr1 ++ [⟨x, (host.exec x p.world).2⟩], by simp [callsOf], h2, fun h => by (cases h), ?_⟩
        rintro q hq
        cases hq
        exact ⟨hdead, t, body, spare, hcur, hpath.snoc _⟩
      · exact frame (by simp [List.foldl_append, Own.step]) (by simp [callsOf, hji]) (by simp) (hset hd hji)
    | @reply j d o v b written hd hrun =>
      by_cases hji : j = i
      · subst hji
        obtain ⟨tr0, tr1, h1, h2, _, h4⟩ := hc d hd
        obtain ⟨hdead, t, body, spare, hcur, hpath⟩ := h4 _ hrun
        have hl : ((ls ++ [Label.reply j written]).foldl (Own.step j) {}) =
            { (ls.foldl (Own.step j) {} : Own) with cur := none, acts := (ls.foldl (Own.step j) {} : Own).acts ++ [.packet 0 t body spare written] } := by
          simp [List.foldl_append, Own.step, hcur]
        refine self hd rfl (by rw [hl]) ?_
        unfold Serial ownActs at *
        rw [callsOf_append, h1, hl]
        refine ⟨tr0 ++ tr1, [], by simp [callsOf], fun rest => ?_, fun h => ⟨rfl, rfl⟩, ?_⟩
        · obtain ⟨p1, hrun1, hw1, hh1, hc1⟩ := h2 (tr1 ++ rest)
          rw [List.append_assoc]
          have hdisp : dispatchIn (scripted H) user false p1.world p1.log d.obj d.Versioned ⟨[], body, spare⟩ t =
              some (⟨rest, tr0 ++ tr1⟩, p1.log, o, v, b) := by
            refine dispatchIn_of_plain (scripted H) user p1.log ?_
            rw [run_dispatch, show (d.obj.into p1.world).obj = d.obj from rfl, show (d.obj.into p1.world).world = p1.world from rfl, hw1,
              hpath.replay rfl]
            rfl
          have hact : act (scripted H) user rootPath false p1 (.packet 0 t body spare written) =
              some { world := ⟨rest, tr0 ++ tr1⟩, log := p1.log, heap := p1.heap.set 0 o, conns := p1.conns.set 0 (if written then { d.conn with Versioned := v, out := d.out ++ [b.bytes] } else { d.conn with Versioned := v, dead := true }) } := by
            unfold act
            have e1 : p1.conns[0]? = some d.conn := by rw [hc1]; rfl
            have e2 : p1.heap[0]? = some d.obj := by rw [hh1]; rfl
            dsimp only
            rw [e1]
            dsimp only [Thr.conn]
            rw [hdead]
            simp only [Bool.false_eq_true, if_false]
            rw [e2]
            dsimp only
            rw [hdisp]
          refine ⟨_, .act hrun1 hact, rfl, ?_, ?_⟩
          · rw [hh1]; unfold Thr.replied; cases written <;> rfl
          · rw [hc1]; unfold Thr.replied; cases written <;> simp [Thr.conn]
        · intro q hq
          unfold Thr.replied at hq
          cases written <;> cases hq
      · exact frame (by simp [List.foldl_append, Own.step, hji]) (by simp [callsOf]) (by simp) (hset hd hji)
    | @hangup j d hd hrun =>
      by_cases hji : j = i
      · subst hji
        obtain ⟨tr0, tr1, h1, h2, h3, _⟩ := hc d hd
        refine self hd rfl (by simp [List.foldl_append, Own.step]) ?_
        obtain ⟨rfl, hcur⟩ := h3 hrun
        unfold Serial ownActs at *
        rw [callsOf_append, h1]
        simp only [List.foldl_append, List.foldl_cons, List.foldl_nil, Own.step, if_true]
        refine ⟨tr0, [], by simp [callsOf], fun rest => ?_, fun _ => ⟨rfl, hcur⟩, fun q hq => ?_⟩
        · obtain ⟨p1, hrun1, hw1, hh1, hc1⟩ := h2 rest
          have hact : act (scripted H) user rootPath false p1 (.hangup 0) =
              some { p1 with conns := p1.conns.set 0 { d.conn with dead := true } } := by
            unfold act
            have e1 : p1.conns[0]? = some d.conn := by rw [hc1]; rfl
            dsimp only
            rw [e1]
          refine ⟨_, .act hrun1 hact, hw1, hh1, ?_⟩
          show p1.conns.set 0 _ = _
          rw [hc1]
          rfl
        · rw [show ({ d with dead := true } : Thr H).running = d.running from rfl, hrun] at hq
          cases hq
      · exact frame (by simp [List.foldl_append, Own.step, hji]) (by simp [callsOf]) (by simp) (hset hd hji)
    | other w => exact frame (by simp [List.foldl_append, Own.step]) rfl rfl rfl

/-- C79: however the host calls of the connections are interleaved, every connection behaves like the only
connection of a process that works on one packet after the other.  The host of that process gives the answers
which the calls of this connection got.  Nothing is left over: the calls made are the same calls in the same
order.  So whatever is proved about `Run` for all hosts holds for connections whose requests overlap. -/
theorem C79_serial {w0 : ω} {ls : List (Label ω H)} {p : TProc ω H} (hr : TRun host user rootPath w0 ls p) {i : Nat} {c : Thr H}
    (hc : p.thr[i]? = some c) (hidle : c.running = none) :
    ∃ p1, Run (scripted H) user rootPath false ⟨callsOf i ls, []⟩ (ownActs i ls) p1 ∧ p1.world = ⟨[], callsOf i ls⟩ ∧
      p1.heap = [c.obj] ∧ p1.conns = [c.conn] := by
  obtain ⟨tr0, tr1, h1, h2, h3, _⟩ := (serial_inv host user rootPath hr i).2.2 c hc
  obtain ⟨rfl, _⟩ := h3 hidle
  rw [List.append_nil] at h1
  rw [h1]
  simpa using h2 []

/-- C79, in the middle of a request: the calls made so far are those of the requests answered before and the
first ones of the request being worked on. -/
theorem C79_midway {w0 : ω} {ls : List (Label ω H)} {p : TProc ω H} (hr : TRun host user rootPath w0 ls p) {i : Nat} {c : Thr H}
    (hc : p.thr[i]? = some c) {q : Prog H (Served H)} (hrun : c.running = some q) :
    ∃ tr0 tr1 t body spare, callsOf i ls = tr0 ++ tr1 ∧ Label.start i t body spare ∈ ls ∧ c.dead = false ∧
      Prog.Path (pdispatch user c.obj c.Versioned ⟨[], body, spare⟩ t) tr1 q ∧
      ∃ p1, Run (scripted H) user rootPath false ⟨tr0, []⟩ (ownActs i ls) p1 ∧ p1.heap = [c.obj] ∧ p1.conns = [c.conn] := by
  obtain ⟨tr0, tr1, h1, h2, _, h4⟩ := (serial_inv host user rootPath hr i).2.2 c hc
  obtain ⟨hd, t, body, spare, hcur, hpath⟩ := h4 q hrun
  obtain ⟨p1, r1, _, r2, r3⟩ := h2 []
  rw [List.append_nil] at r1
  refine ⟨tr0, tr1, t, body, spare, h1, ?_, hd, hpath, p1, r1, r2, r3⟩
  clear h1 h2 h4 hpath r1 r2 r3 hr hc
  have key : ∀ (ls : List (Label ω H)) (s : Own), (ls.foldl (Own.step i) s).cur = some (t, body, spare) →
      s.cur = some (t, body, spare) ∨ Label.start i t body spare ∈ ls := by
    intro ls
    induction ls with
    | nil => exact fun s h => .inl h
    | cons l ls ih =>
      intro s h
      rcases ih _ h with h | h
      · cases l with
        | start j t' body' spare' =>
          simp only [Own.step] at h
          split at h
          · rename_i hj; cases h; subst hj; exact .inr (.head _)
          · exact .inl h
        | reply j w =>
          simp only [Own.step] at h
          split at h
          · split at h
            · cases h
            · exact .inl h
          · exact .inl h
        | hangup j =>
          simp only [Own.step] at h
          split at h <;> exact .inl h
        | _ => exact .inl h
      · exact .inr (.tail _ h)
  rcases key ls {} hcur with h | h
  · cases h
  · exact h

/-- the world after the steps `ls` from `w`, if all answers in `ls` are those of the host -/
inductive Executed : ω → List (Label ω H) → ω → Prop
  | nil {w} : Executed w [] w
  | call {w i c ls w'} : Executed (host.exec c w).1 ls w' → Executed w (.call i ⟨c, (host.exec c w).2⟩ :: ls) w'
  | other {w w1 ls w'} : Executed w1 ls w' → Executed w (.other w1 :: ls) w'
  | skip {w l ls w'} : (∀ i e, l ≠ .call i e) → (∀ w1, l ≠ .other w1) → Executed w ls w' → Executed w (l :: ls) w'

theorem Executed.append {w w1 w2 : ω} {as bs : List (Label ω H)} (h : Executed host w as w1) (h2 : Executed host w1 bs w2) :
    Executed host w (as ++ bs) w2 := by
  induction h with
  | nil => exact h2
  | call _ ih => exact .call (ih h2)
  | other _ ih => exact .other (ih h2)
  | skip h1 h3 _ ih => exact .skip h1 h3 (ih h2)

/-- C79: the answers are those of the host, which executes the calls of all connections in the order in which
they were made. -/
theorem C79_world {w0 : ω} {ls : List (Label ω H)} {p : TProc ω H} (hr : TRun host user rootPath w0 ls p) :
    Executed host w0 ls p.world := by
  induction hr with
  | init => exact .nil
  | step _ hs ih =>
    refine ih.append host ?_
    cases hs with
    | call => exact .call .nil
    | other w => exact .other .nil
    | _ => exact .skip (by intros; simp) (by intros; simp) .nil

theorem run_uninterrupted {w0 : ω} {ls : List (Label ω H)} {p : TProc ω H} (hr : TRun host user rootPath w0 ls p) {i : Nat} {c : Thr H}
    {q : Prog H (Served H)} (hc : p.thr[i]? = some { c with running := some q }) {w : ω} {o : Obj H} {v : Bool} {b : Buffer}
    (hq : q.run host p.world = some (w, o, v, b)) (written : Bool) :
    ∃ evs : List (Ev H), TRun host user rootPath w0 (ls ++ evs.map (Label.call i) ++ [.reply i written])
      { world := w, thr := p.thr.set i (c.replied o v b written) } := by
  induction q generalizing ls p with
  | ret r =>
    simp only [Prog.run, Option.some.injEq, Prod.mk.injEq] at hq
    obtain ⟨rfl, rfl⟩ := hq
    exact ⟨[], by simpa [Thr.replied] using TRun.step hr (.reply written hc rfl)⟩
  | panic => cases hq
  | call x k ih =>
    have hi : i < p.thr.length := (List.getElem?_eq_some_iff.1 hc).1
    obtain ⟨evs, h⟩ := ih _ (hr.step (.call hc rfl)) (List.getElem?_set_self hi) hq
    refine ⟨⟨x, (host.exec x p.world).2⟩ :: evs, ?_⟩
    simpa using h

/-- C79: a request that is not interrupted does what `Dispatch` does.  (So the processes of Ufs/Conns.lean are
those in which no request is interrupted.) -/
theorem C79_uninterrupted {w0 : ω} {ls : List (Label ω H)} {p : TProc ω H} (hr : TRun host user rootPath w0 ls p) {i : Nat} {c : Thr H}
    (hc : p.thr[i]? = some c) (hidle : c.running = none) (hdead : c.dead = false) (t : MType) (body spare : Bytes) (written : Bool)
    {s' : State ω H} {v : Bool} {b : Buffer}
    (hd : dispatch (ufs host user) ⟨c.obj.into p.world, c.Versioned⟩ ⟨[], body, spare⟩ t = .done ⟨s', v⟩ b) :
    ∃ evs : List (Ev H), TRun host user rootPath w0 (ls ++ [.start i t body spare] ++ evs.map (Label.call i) ++ [.reply i written])
      { world := s'.world, thr := p.thr.set i (c.replied s'.obj v b written) } := by
  rw [run_dispatch] at hd
  have hi : i < p.thr.length := (List.getElem?_eq_some_iff.1 hc).1
  cases hx : (pdispatch user c.obj c.Versioned ⟨[], body, spare⟩ t).run host p.world with
  | none =>
    rw [show (c.obj.into p.world).obj = c.obj from rfl, show (c.obj.into p.world).world = p.world from rfl, hx] at hd
    cases hd
  | some r =>
    obtain ⟨w, o, v', b'⟩ := r
    rw [show (c.obj.into p.world).obj = c.obj from rfl, show (c.obj.into p.world).world = p.world from rfl, hx] at hd
    cases hd
    obtain ⟨evs, h⟩ := run_uninterrupted host user rootPath (hr.step (.start t body spare hc hdead hidle)) (c := c)
      (List.getElem?_set_self hi) hx written
    refine ⟨evs, ?_⟩
    show TRun host user rootPath w0 _ { world := w, thr := p.thr.set i (c.replied o v b written) }
    simpa using h

/-- C79: each connection lives through a history of its own, whatever the others do in the middle of its
requests. -/
theorem C79_history {w0 : ω} {ls : List (Label ω H)} {p : TProc ω H} (hr : TRun host user rootPath w0 ls p) {i : Nat} {c : Thr H}
    (hc : p.thr[i]? = some c) :
    ∃ w1 w h, Hist (scripted H) user AnyReq AnyWorld (newFS rootPath w1) h (c.obj.into w) := by
  obtain ⟨tr0, tr1, _, h2, _⟩ := (serial_inv host user rootPath hr i).2.2 c hc
  obtain ⟨p1, r1, r2, r3, r4⟩ := h2 []
  have e : p1.conns[0]? = some c.conn := by rw [r4]; rfl
  obtain ⟨o, w1, h, ho, hh⟩ := C23_history (scripted H) user rootPath false r1 e
  rw [r3] at ho
  cases ho
  exact ⟨w1, _, h, hh⟩

/-! ### C80 -/

/-- some steps -/
inductive TSteps : TProc ω H → List (Label ω H) → TProc ω H → Prop
  | nil {p} : TSteps p [] p
  | cons {p l p1 ls p'} : TStep host user rootPath p l p1 → TSteps p1 ls p' → TSteps p (l :: ls) p'

/-- a request of connection `i` that makes at most `n` more calls makes at most `n` calls before it is answered,
and until then it is being worked on -/
theorem steps_bounded {p p' : TProc ω H} {ls : List (Label ω H)} (hs : TSteps host user rootPath p ls p') {i : Nat} {c : Thr H}
    {q0 q : Prog H (Served H)} {tr : List (Ev H)} (hc : p.thr[i]? = some c) (hq : c.running = some q) (hp : q0.Path tr q)
    (hno : ∀ written, Label.reply i written ∉ ls) :
    ∃ c' q', p'.thr[i]? = some c' ∧ c'.obj = c.obj ∧ c'.Versioned = c.Versioned ∧ c'.running = some q' ∧ q0.Path (tr ++ callsOf i ls) q' := by
  induction hs generalizing c q tr with
  | nil => exact ⟨c, q, hc, rfl, rfl, hq, by simpa [callsOf] using hp⟩
  | @cons p l p1 ls p' h1 _ ih =>
    have hno' : ∀ written, Label.reply i written ∉ ls := fun w h => hno w (.tail _ h)
    have frame : p1.thr[i]? = p.thr[i]? → callsOf i (l :: ls) = callsOf i ls →
        ∃ c' q', p'.thr[i]? = some c' ∧ c'.obj = c.obj ∧ c'.Versioned = c.Versioned ∧ c'.running = some q' ∧
          q0.Path (tr ++ callsOf i (l :: ls)) q' := by
      intro h2 h3
      rw [h3]
      exact ih (h2.trans hc) hq hp hno'
    have hi : i < p.thr.length := (List.getElem?_eq_some_iff.1 hc).1
    cases h1 with
    | accept => exact frame (List.getElem?_append_left hi) rfl
    | @start j d t body spare hd hdead hrun =>
      by_cases hji : j = i
      · subst hji; rw [hc] at hd; cases hd; rw [hq] at hrun; cases hrun
      · exact frame (List.getElem?_set_ne hji) rfl
    | @call j d x k hd hrun =>
      by_cases hji : j = i
      · subst hji
        rw [hc] at hd; cases hd
        rw [hq] at hrun; cases hrun
        obtain ⟨c', q', h2, h3, h4, h5, h6⟩ := ih (List.getElem?_set_self hi) rfl (hp.snoc (host.exec x p.world).2) hno'
        exact ⟨c', q', h2, h3, h4, h5, by simpa [callsOf] using h6⟩
      · exact frame (List.getElem?_set_ne hji) (by simp [callsOf, hji])
    | @reply j d o v b written hd hrun =>
      by_cases hji : j = i
      · subst hji; exact absurd (.head _) (hno written)
      · exact frame (List.getElem?_set_ne hji) rfl
    | @hangup j d hd hrun =>
      by_cases hji : j = i
      · subst hji; rw [hc] at hd; cases hd; rw [hq] at hrun; cases hrun
      · exact frame (List.getElem?_set_ne hji) rfl
    | other w => exact frame rfl rfl

/-- C80: a request makes at most six host calls, a Twalk at most one for each of its at most 65535 names.  This
holds however the calls of other connections and the doings of other processes are mixed in, and whatever the
host answers. -/
theorem C80_bounded {p p1 p2 : TProc ω H} {i : Nat} {t : MType} {body spare : Bytes} {ls : List (Label ω H)}
    (hs : TStep host user rootPath p (.start i t body spare) p1) (h : TSteps host user rootPath p1 ls p2)
    (hno : ∀ written, Label.reply i written ∉ ls) :
    (callsOf i ls).length ≤ (if t = MT.Twalk then (walkNames ⟨[], body, spare⟩).length else 6) ∧
    (walkNames ⟨[], body, spare⟩).length ≤ 65535 := by
  refine ⟨?_, walkNames_length _⟩
  cases hs with
  | @start _ c _ _ _ hc hdead hrun =>
    have hi : i < p.thr.length := (List.getElem?_eq_some_iff.1 hc).1
    obtain ⟨c', q', _, _, _, _, hp⟩ := steps_bounded host user rootPath h (List.getElem?_set_self hi) rfl .nil hno
    exact atMost_dispatch user c.obj c.Versioned ⟨[], body, spare⟩ t _ _ hp

/-- C80: the names are those of the request, if the packet is well-formed -/
theorem C80_names (m : TwalkPkt) (hm : (TMsg.walk m).Fits) (tag : Tag) (spare : Bytes) :
    walkNames ⟨[], (TMsg.walk m).body tag, spare⟩ = m.Paths := by
  unfold walkNames
  have := decodes_Twalk.fwd [] spare tag m hm
  rw [this]

/-- C80: until its reply is written a request can always go on, whatever other connections are doing in the
meantime, unless it crashes the process; the only reasons for that are a decoder that panics and a read of an
open plain file with a negative count. -/
theorem C80_progress {p p1 p2 : TProc ω H} {i : Nat} {t : MType} {body spare : Bytes} {ls : List (Label ω H)}
    (hb : 2 ≤ body.length) (hs : TStep host user rootPath p (.start i t body spare) p1) (h : TSteps host user rootPath p1 ls p2)
    (hno : ∀ written, Label.reply i written ∉ ls) :
    (∃ e p3, TStep host user rootPath p2 (.call i e) p3) ∨ (∀ written, ∃ p3, TStep host user rootPath p2 (.reply i written) p3) ∨
    (∃ m : TMsg, m.ty = t ∧ decT m ⟨[], body, spare⟩ = .panic) ∨
    ∃ c m tag e b' f, p1.thr[i]? = some c ∧ unmarshalTread ⟨[], body, spare⟩ = .done m tag e b' ∧ c.obj.files m.OFID = some f ∧
      f.file ≠ none ∧ f.qid.Typ &&& QTDIR = 0 ∧ m.Len.toInt < 0 := by
  cases hs with
  | @start _ c _ _ _ hc hdead hrun =>
    have hi : i < p.thr.length := (List.getElem?_eq_some_iff.1 hc).1
    obtain ⟨c', q', h1, _, _, h2, hp⟩ := steps_bounded host user rootPath h (List.getElem?_set_self hi) rfl .nil hno
    cases q' with
    | call x k => exact .inl ⟨_, _, .call h1 h2⟩
    | ret r => exact .inr (.inl fun written => ⟨_, .reply written h1 h2⟩)
    | panic =>
      refine .inr (.inr ?_)
      have hx := run_dispatch (scripted H) user (c.obj.into ⟨[] ++ callsOf i ls, []⟩) c.Versioned ⟨[], body, spare⟩ t
      rw [show (c.obj.into (⟨[] ++ callsOf i ls, []⟩ : Script H)).obj = c.obj from rfl,
        show (c.obj.into (⟨[] ++ callsOf i ls, []⟩ : Script H)).world = ⟨[] ++ callsOf i ls, []⟩ from rfl, hp.replay_panic rfl] at hx
      rcases dispatch_cases (ufs (scripted H) user) ⟨c.obj.into ⟨[] ++ callsOf i ls, []⟩, c.Versioned⟩ ⟨[], body, spare⟩ t hb with
        ⟨-, -, e, h1⟩ | ⟨-, m, hm, h1⟩ | ⟨-, -, e, b1, h1⟩
      · rw [h1] at hx; cases hx
      · rw [h1] at hx
        unfold handle at hx
        cases hd : decT m ⟨[], body, spare⟩ with
        | panic => exact .inl ⟨m, hm, hd⟩
        | done m' tag e b1 =>
          rw [hd] at hx
          dsimp only at hx
          have hcall : call (ufs (scripted H) user) m' (c.obj.into ⟨[] ++ callsOf i ls, []⟩) = .panic := by
            split at hx
            · assumption
            · cases hx
            · cases hx
          obtain ⟨pk, f, rfl, h3, h4, h5, h6⟩ := (C52_panic_partial (scripted H) user m' _).1 hcall
          have hm' : m.ty = MT.Tread := by rw [← decT_ty m hd]; rfl
          refine .inr ⟨_, pk, tag, e, b1, f, List.getElem?_set_self hi, ?_, h3, h4, h5, h6⟩
          cases m with
          | read p =>
            unfold decT Unm.map at hd
            cases hu : unmarshalTread ⟨[], body, spare⟩ with
            | panic => rw [hu] at hd; cases hd
            | done a b c d => rw [hu] at hd; cases hd; rfl
          | _ => cases hm'
      · rw [h1] at hx; cases hx

theorem Prog.Path.bind {α β : Type} {p q : Prog H α} {tr : List (Ev H)} (h : p.Path tr q) (f : α → Prog H β) :
    (p.bind f).Path tr (q.bind f) := by
  induction h with
  | nil => exact .nil
  | cons _ ih => exact .cons ih

open Dec in
theorem short_walk (t0 t1 a0 a1 a2 a3 b0 b1 b2 b3 lo hi : Byte) (spare : Bytes) :
    ∃ p t e b', unmarshalTwalk ⟨[], [t0, t1, a0, a1, a2, a3, b0, b1, b2, b3, lo, hi], spare⟩ = .done p t e b' ∧
      p.SFID = a0.toUInt32 ||| a1.toUInt32 <<< 8 ||| a2.toUInt32 <<< 16 ||| a3.toUInt32 <<< 24 ∧
      p.Paths = List.replicate (lo.toNat + 256 * hi.toNat) [] := by
  have hl : ∀ u : Fin 8 → Byte, u 0 = lo → u 1 = hi → (asmLen16 u).toNat = lo.toNat + 256 * hi.toNat := by
    intro u h0 h1
    subst h0 h1
    rw [asmLen16_toNat]
    simp [Spec.leVal]
  unfold unmarshalTwalk Dec.run
  simp only [bind, Dec.bind, getTag, getU32, getStrings, readU, Buffer.read, setR, setT]
  simp [hl]
  cases hl2 : lo.toNat + 256 * hi.toNat with
  | zero => simp [forRange, Dec.pure, pure, finish, Buffer.len, asm32]; rfl
  | succ n => simp [forRange, getString, bind, Dec.bind, readU, Buffer.read, asm32]; rfl

theorem walkLoop_long (st : FileInfo) (p : GoString) (names : List GoString) :
    ∃ (tr : List (Ev H)) (r : List QID × Option GoString), (pwalkLoop p names).Path tr (.ret r) ∧ tr.length = names.length ∧
      ∀ e ∈ tr, ∃ p', e = ⟨.lstat p', .ok st⟩ := by
  induction names generalizing p with
  | nil => exact ⟨[], _, .nil, rfl, fun e h => by cases h⟩
  | cons n ns ih =>
    obtain ⟨tr, r, h1, h2, h3⟩ := ih (pathJoin p n)
    refine ⟨⟨.lstat (pathJoin p n), .ok st⟩ :: tr, _, .cons (h1.bind _), by simp [h2], ?_⟩
    intro e he
    cases he with
    | head => exact ⟨_, rfl⟩
    | tail _ he => exact h3 e he

/-- C80: the bound is reached, and not only by long packets: with two bytes for the number of names a client makes
the server look up to 65535 times for a file, since the names that the packet lacks are taken for empty names. -/
theorem C80_amplified (o : Obj H) {f : File H} (st : FileInfo) (t0 t1 a0 a1 a2 a3 b0 b1 b2 b3 lo hi : Byte) (spare : Bytes)
    (hf : o.files (a0.toUInt32 ||| a1.toUInt32 <<< 8 ||| a2.toUInt32 <<< 16 ||| a3.toUInt32 <<< 24) = some f) :
    ∃ (tr : List (Ev H)) (q : Prog H (Served H)), 
      (pdispatch user o true ⟨[], [t0, t1, a0, a1, a2, a3, b0, b1, b2, b3, lo, hi], spare⟩ MT.Twalk).Path tr q ∧
      tr.length = lo.toNat + 256 * hi.toNat ∧ ∀ e ∈ tr, ∃ p, e = ⟨.lstat p, .ok st⟩ := by
  obtain ⟨p, t, e, b', h1, h2, h3⟩ := short_walk t0 t1 a0 a1 a2 a3 b0 b1 b2 b3 lo hi spare
  have : ∀ b, pdispatch user o true b MT.Twalk =
      psrv unmarshalTwalk (fun p => pwalk p.SFID p.NewFID p.Paths) (fun b t q => marshalRwalk b t { QIDs := q }) o true b := by
    intro b; rfl
  rw [this, psrv, h1]
  dsimp only
  unfold pwalk
  rw [h2, hf]
  dsimp only
  by_cases hp : p.Paths = []
  · refine ⟨[], _, .nil, ?_, fun e h => by cases h⟩
    rw [hp] at h3
    have := congrArg List.length h3
    simpa using this
  · rw [if_neg hp]
    obtain ⟨tr, r, h4, h5, h6⟩ := walkLoop_long (H := H) st f.fullName p.Paths
    exact ⟨tr, _, (h4.bind _).bind _, by rw [h5, h3]; simp, h6⟩
/-! ### a scheduler, for examples -/

/-- what the scheduler lets happen next -/
inductive Choice (ω : Type) where
  | accept
  | start (i : Nat) (m : TMsg)
  /-- connection `i` goes on: its next host call, or its reply -/
  | go (i : Nat)
  | hangup (i : Nat)
  | other (w : ω)

/-- the step of the process -/
def choose (p : TProc ω H) : Choice ω → Option (Label ω H × TProc ω H)
  | .accept => some (.accept, { p with thr := p.thr ++ [{ obj := newObj rootPath }] })
  | .start i m =>
    match p.thr[i]? with
    | some ⟨o, v, false, out, none⟩ => some (.start i m.ty (m.body 7) [],
        { p with thr := p.thr.set i ⟨o, v, false, out, some (pdispatch user o v ⟨[], m.body 7, []⟩ m.ty)⟩ })
    | _ => none
  | .go i =>
    match p.thr[i]? with
    | some ⟨o, v, d, out, some (.call x k)⟩ => some (.call i ⟨x, (host.exec x p.world).2⟩,
        { world := (host.exec x p.world).1, thr := p.thr.set i ⟨o, v, d, out, some (k (host.exec x p.world).2)⟩ })
    | some ⟨o, v, d, out, some (.ret (o', v', b))⟩ => some (.reply i true,
        { p with thr := p.thr.set i ((⟨o, v, d, out, some (.ret (o', v', b))⟩ : Thr H).replied o' v' b true) })
    | _ => none
  | .hangup i =>
    match p.thr[i]? with
    | some ⟨o, v, _, out, none⟩ => some (.hangup i, { p with thr := p.thr.set i ⟨o, v, true, out, none⟩ })
    | _ => none
  | .other w => some (.other w, { p with world := w })

theorem choose_sound {p : TProc ω H} {ch : Choice ω} {l : Label ω H} {p' : TProc ω H}
    (h : choose host user rootPath p ch = some (l, p')) : TStep host user rootPath p l p' := by
  cases ch with
  | accept => cases h; exact .accept
  | other w => cases h; exact .other w
  | start i m =>
    unfold choose at h
    dsimp only at h
    split at h
    · rename_i o v out hi
      cases h
      exact TStep.start m.ty (m.body 7) [] hi rfl rfl
    · cases h
  | go i =>
    unfold choose at h
    dsimp only at h
    split at h
    · rename_i hi
      cases h
      exact TStep.call hi rfl
    · rename_i hi
      cases h
      exact TStep.reply true hi rfl
    · cases h
  | hangup i =>
    unfold choose at h
    dsimp only at h
    split at h
    · rename_i hi
      cases h
      exact TStep.hangup hi rfl
    · cases h

/-- many choices -/
def schedule (p : TProc ω H) : List (Choice ω) → Option (List (Label ω H) × TProc ω H)
  | [] => some ([], p)
  | ch :: chs =>
    match choose host user rootPath p ch with
    | none => none
    | some (l, p1) =>
      match schedule p1 chs with
      | none => none
      | some (ls, p2) => some (l :: ls, p2)

theorem schedule_steps {p : TProc ω H} {chs : List (Choice ω)} {ls : List (Label ω H)} {p' : TProc ω H}
    (h : schedule host user rootPath p chs = some (ls, p')) : TSteps host user rootPath p ls p' := by
  induction chs generalizing p ls with
  | nil => cases h; exact .nil
  | cons ch chs ih =>
    unfold schedule at h
    split at h
    · cases h
    · rename_i l p1 h1
      split at h
      · cases h
      · rename_i ls1 p2 h2
        cases h
        exact .cons (choose_sound host user rootPath h1) (ih h2)

theorem TSteps.run {w0 : ω} {p p' : TProc ω H} {ls0 ls : List (Label ω H)} (h0 : TRun host user rootPath w0 ls0 p)
    (h : TSteps host user rootPath p ls p') : TRun host user rootPath w0 (ls0 ++ ls) p' := by
  induction h generalizing ls0 with
  | nil => simpa using h0
  | cons h1 _ ih => simpa using ih (h0.step h1)

theorem schedule_run {w0 : ω} {chs : List (Choice ω)} {ls : List (Label ω H)} {p' : TProc ω H}
    (h : schedule host user rootPath { world := w0 } chs = some (ls, p')) : TRun host user rootPath w0 ls p' := by
  simpa using TSteps.run host user rootPath .init (schedule_steps host user rootPath h)

end

/-! ### examples -/

open Mem

/-- a whole request, with `n` host calls, without interruption -/
def whole (i : Nat) (m : TMsg) (n : Nat) : List (Choice Mem.World) := .start i m :: List.replicate (n + 1) (.go i)

def version0 : TMsg := .version { TMsize := 8192, TVersion := lit "9P2000" }

/-- two connections, attached -/
def both : List (Choice Mem.World) :=
  [.accept, .accept] ++ whole 0 version0 0 ++ whole 1 version0 0 ++ whole 0 attach0 1 ++ whole 1 attach0 1

/-- both walk to "/x/f"; the second one takes its packet and makes its call while the first one is between its
call and its reply -/
def overlap : List (Choice Mem.World) :=
  both ++ [.start 0 walk1, .start 1 walk1, .go 0, .go 1, .go 0, .go 1]

def sched (chs : List (Choice Mem.World)) : Option (List (Label Mem.World Nat) × TProc Mem.World Nat) :=
  schedule Mem.host [103] [47, 120] { world := world0 } chs

example : (sched overlap).map (fun r => (r.2.thr.map fun c => ((c.obj.files 1).map (·.fullName), c.running.isNone, c.out.length),
    (callsOf 0 r.1).length, (callsOf 1 r.1).length, (ownActs 1 r.1).length)) =
    some ([(some [47, 120, 47, 102], true, 3), (some [47, 120, 47, 102], true, 3)], 2, 2, 4) := by decide +kernel


/-- the hypotheses of `C79_serial`, `C79_world` and `C79_history` -/
example : ∃ ls p c, TRun Mem.host [103] [47, 120] world0 ls p ∧ p.thr[1]? = some c ∧ c.running = none ∧ c.out.length = 3 := by
  have h : (sched overlap).isSome := by decide +kernel
  obtain ⟨⟨ls, p⟩, h⟩ := Option.isSome_iff_exists.1 h
  have h1 : (sched overlap).map (fun r => ((r.2.thr[1]?.map fun c => (c.running.isNone, c.out.length)))) = some (some (true, 3)) := by decide +kernel
  rw [h] at h1
  simp only [Option.map_some, Option.some.injEq, Option.map_eq_some_iff, Prod.mk.injEq] at h1
  obtain ⟨c, hc, h2, h3⟩ := h1
  exact ⟨ls, p, c, schedule_run _ _ _ h, hc, by simpa using h2, h3⟩

/-- those of `C79_midway`, `C80_bounded` and `C80_progress`: both connections are in the middle of a request -/
example : (sched (both ++ [.start 0 walk1, .start 1 walk1, .go 0])).map
    (fun r => r.2.thr.map fun c => c.running.map fun q => match q with | .ret _ => 0 | .call _ _ => 1 | .panic => 2) =
    some [some 0, some 1] := by decide +kernel

/-- those of `C79_uninterrupted` -/
example : (dispatch (ufs Mem.host [103]) ⟨demo, true⟩ ⟨[], attach0.body 7, []⟩ MT.Tattach) ≠ .panic := by
  intro h; cases h

/-- C80: a Twalk with 300 names announced and none sent makes 300 names (all empty, so 300 calls of Lstat) -/
example : walkNames ⟨[], [7, 0, 0, 0, 0, 0, 1, 0, 0, 0, 44, 1], []⟩ = List.replicate 300 [] := by decide +kernel

example : (TMsg.walk { SFID := 0, NewFID := 1, Paths := [[102]] }).Fits := by
  simp [TMsg.Fits]

/-- the hypothesis of `C80_amplified` -/
example : ((sched both).map fun r => r.2.thr.map fun c => (c.obj.files ((0 : Byte).toUInt32 ||| (0 : Byte).toUInt32 <<< 8 |||
    (0 : Byte).toUInt32 <<< 16 ||| (0 : Byte).toUInt32 <<< 24)).isSome) = some [true, true] := by decide +kernel

end Ninep.Ufs
