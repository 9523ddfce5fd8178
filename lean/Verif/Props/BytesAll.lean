import Verif.Props.BytesCut
import Verif.Props.Malformed
import Verif.Props.Cuts
/-
C92, all executions: an end of file may be inside of a request and inside of a reply.  The idea of the proof: when the
server takes the beginning of a request for the request `m'` (C108), everything is as if it had got the whole request,
but called the file server with `m'` this one time (`swapped`).  So the invariants of Props/Bytes.lean and
Props/BytesCut.lean hold with another file server.
-/

namespace Ninep.Client
open Spec Dec
variable {σ : Type}

/-- A request of which some of the fields have been cut off may be taken for `m'`, see `MadeOf`.  The second byte of the
number of names of a Twalk, if it is missing, is that of the new fid. -/
def CutTo (m m' : TMsg) : Prop := m'.type = m.type ∧ ∃ n, n < m.fields.length ∧ MadeOf m' (m.fields.take n) ∧
  ∀ p p', m = .walk p → m' = .walk p' → n = 9 → p'.Paths.length = p.Paths.length % 256 + 256 * (p.NewFID.toNat / 256 % 256)

/-- the requests carried out are those sent, but for the last one, which may have been cut off -/
def Acted (ms acted : List TMsg) : Prop :=
  acted = ms ∨ ∃ pre m m', ms = pre ++ [m] ∧ acted = pre ++ [m'] ∧ CutTo m m'

/-! ### a file server that is called with `m'` once -/

def bump {α : Type} (n : Nat) : NRes σ α → NRes (σ × Nat) α
  | .panic => .panic
  | .ok s a => .ok (s, n + 1) a
  | .err s e => .err (s, n + 1) e

def swapped (ns : NineServer σ) (k : Nat) (m' : TMsg) : NineServer (σ × Nat) where
  Rversion a b x := bump x.2 (if x.2 = k then (match m' with | .version p => ns.Rversion p.TMsize p.TVersion x.1 | _ => .panic) else ns.Rversion a b x.1)
  Rattach a b c d x := bump x.2 (if x.2 = k then (match m' with | .attach p => ns.Rattach p.SFID p.AFID p.Uname p.Aname x.1 | _ => .panic) else ns.Rattach a b c d x.1)
  Rwalk a b c x := bump x.2 (if x.2 = k then (match m' with | .walk p => ns.Rwalk p.SFID p.NewFID p.Paths x.1 | _ => .panic) else ns.Rwalk a b c x.1)
  Ropen a b x := bump x.2 (if x.2 = k then (match m' with | .open_ p => ns.Ropen p.OFID p.Omode x.1 | _ => .panic) else ns.Ropen a b x.1)
  Rcreate a b c d x := bump x.2 (if x.2 = k then (match m' with | .create p => ns.Rcreate p.OFID p.Name p.CreatePerm p.Omode x.1 | _ => .panic) else ns.Rcreate a b c d x.1)
  Rstat a x := bump x.2 (if x.2 = k then (match m' with | .stat p => ns.Rstat p.OFID x.1 | _ => .panic) else ns.Rstat a x.1)
  Rwstat a b x := bump x.2 (if x.2 = k then (match m' with | .wstat p => ns.Rwstat p.OFID p.B x.1 | _ => .panic) else ns.Rwstat a b x.1)
  Rclunk a x := bump x.2 (if x.2 = k then (match m' with | .clunk p => ns.Rclunk p.OFID x.1 | _ => .panic) else ns.Rclunk a x.1)
  Rremove a x := bump x.2 (if x.2 = k then (match m' with | .remove p => ns.Rremove p.OFID x.1 | _ => .panic) else ns.Rremove a x.1)
  Rread a b c x := bump x.2 (if x.2 = k then (match m' with | .read p => ns.Rread p.OFID p.Off p.Len x.1 | _ => .panic) else ns.Rread a b c x.1)
  Rwrite a b c x := bump x.2 (if x.2 = k then (match m' with | .write p => ns.Rwrite p.OFID p.Off p.Data x.1 | _ => .panic) else ns.Rwrite a b c x.1)
  Rflush a x := bump x.2 (if x.2 = k then (match m' with | .flush p => ns.Rflush p.OTag x.1 | _ => .panic) else ns.Rflush a x.1)

theorem mapRes_bump {α β : Type} (f : α → β) (n : Nat) (r : NRes σ α) : mapRes f (bump n r) = bump n (mapRes f r) := by
  cases r <;> rfl

theorem call_swapped (ns : NineServer σ) (k : Nat) (m' m : TMsg) (x : σ) (n : Nat) :
    call (swapped ns k m') m (x, n) = bump n (if n = k then (if m'.type = m.type then call ns m' x else .panic) else call ns m x) := by
  by_cases h : n = k
  · subst h
    cases m <;> cases m' <;> simp only [call, swapped, mapRes_bump, if_true, TMsg.type] <;> simp [mapRes]
  · cases m <;> simp only [call, swapped, mapRes_bump, if_neg h]

/-- what the file server is called with, from the `n`-th call on -/
def actsFrom (k : Nat) (m' : TMsg) : Nat → List TMsg → List TMsg
  | _, [] => []
  | n, m :: ms => (if n = k then m' else m) :: actsFrom k m' (n + 1) ms

theorem actsFrom_before (k : Nat) (m' : TMsg) (n : Nat) (ms : List TMsg) (h : n + ms.length ≤ k) : actsFrom k m' n ms = ms := by
  induction ms generalizing n with
  | nil => rfl
  | cons m ms ih =>
    simp only [List.length_cons] at h
    simp only [actsFrom]
    rw [if_neg (by omega), ih (n + 1) (by omega)]

theorem actsFrom_append (k : Nat) (m' : TMsg) (n : Nat) (a b : List TMsg) : actsFrom k m' n (a ++ b) = actsFrom k m' n a ++ actsFrom k m' (n + a.length) b := by
  induction a generalizing n with
  | nil => rfl
  | cons m a ih => simp only [List.cons_append, actsFrom, ih, List.length_cons]; congr 3; omega

theorem runCalls_swapped (ns : NineServer σ) (k : Nat) (m' : TMsg) (ms : List TMsg) {x y : σ} {n n' : Nat} {outs : List (Except GoString RMsg)}
    (h : runCalls (swapped ns k m') ms (x, n) = some ((y, n'), outs)) :
    n' = n + ms.length ∧ runCalls ns (actsFrom k m' n ms) x = some (y, outs) := by
  induction ms generalizing x n outs with
  | nil => cases h; exact ⟨rfl, rfl⟩
  | cons m ms ih =>
    simp only [runCalls, call_swapped] at h
    generalize hr : (if n = k then if m'.type = m.type then call ns m' x else NRes.panic else call ns m x) = r at h
    have hc : r ≠ .panic → call ns (if n = k then m' else m) x = r := by
      intro hne
      by_cases hn : n = k
      · rw [if_pos hn] at hr ⊢
        by_cases ht : m'.type = m.type
        · rwa [if_pos ht] at hr
        · rw [if_neg ht] at hr; exact absurd hr.symm hne
      · rwa [if_neg hn] at hr ⊢
    simp only [List.length_cons, actsFrom, runCalls]
    cases r with
    | panic => cases h
    | ok x' r =>
      rw [hc (by simp)]
      simp only [bump, Option.map_eq_some_iff] at h
      obtain ⟨⟨⟨z1, z2⟩, z3⟩, h1, h2⟩ := h
      cases h2
      obtain ⟨i1, i2⟩ := ih h1
      exact ⟨by omega, by simp [i2]⟩
    | err x' r =>
      rw [hc (by simp)]
      simp only [bump, Option.map_eq_some_iff] at h
      obtain ⟨⟨⟨z1, z2⟩, z3⟩, h1, h2⟩ := h
      cases h2
      obtain ⟨i1, i2⟩ := ih h1
      exact ⟨by omega, by simp [i2]⟩

theorem runCalls_unswapped (ns : NineServer σ) (k : Nat) (m' : TMsg) (ms : List TMsg) {x y : σ} {n : Nat} {outs : List (Except GoString RMsg)}
    (hk : n + ms.length ≤ k) (h : runCalls ns ms x = some (y, outs)) :
    runCalls (swapped ns k m') ms (x, n) = some ((y, n + ms.length), outs) := by
  induction ms generalizing x n outs with
  | nil => cases h; rfl
  | cons m ms ih =>
    simp only [List.length_cons] at hk ⊢
    simp only [runCalls, call_swapped]
    rw [if_neg (by omega)]
    simp only [runCalls] at h
    cases hc : call ns m x with
    | panic => rw [hc] at h; cases h
    | ok x' r =>
      rw [hc] at h
      simp only [Option.map_eq_some_iff] at h
      obtain ⟨⟨z1, z2⟩, h1, h2⟩ := h
      cases h2
      simp only [bump, ih (n := n + 1) (by omega) h1]
      simp; omega
    | err x' r =>
      rw [hc] at h
      simp only [Option.map_eq_some_iff] at h
      obtain ⟨⟨z1, z2⟩, h1, h2⟩ := h
      cases h2
      simp only [bump, ih (n := n + 1) (by omega) h1]
      simp; omega

theorem swapped_modest {P Q : TMsg → Prop} {ns : NineServer σ} (hns : Modest Q ns) (hPQ : ∀ m, P m → Q m) (k : Nat) {m' : TMsg} (hm : Q m') (hf : m'.Fits) :
    Modest P (swapped ns k m') := by
  intro m x hp hfit
  replace hp := hPQ m hp
  obtain ⟨x, n⟩ := x
  rw [call_swapped]
  have key : ∀ r : NRes σ RMsg, ((∀ x' a, r = .ok x' a → a.Fits ∧ ∀ t, (a.packet t).length < 2 ^ 32) ∧ (∀ x' e, r = .err x' e → e.length < 2 ^ 16)) →
      (∀ x' a, bump n r = .ok x' a → a.Fits ∧ ∀ t, (a.packet t).length < 2 ^ 32) ∧ (∀ x' e, bump n r = .err x' e → e.length < 2 ^ 16) := by
    intro r hr
    cases r with
    | panic => exact ⟨nofun, nofun⟩
    | ok x a => exact ⟨fun x' a' h => by cases h; exact hr.1 _ _ rfl, nofun⟩
    | err x e => exact ⟨nofun, fun x' e' h => by cases h; exact hr.2 _ _ rfl⟩
  apply key
  by_cases hn : n = k
  · rw [if_pos hn]
    by_cases ht : m'.type = m.type
    · rw [if_pos ht]; exact hns m' x hm hf
    · rw [if_neg ht]; exact ⟨nofun, nofun⟩
  · rw [if_neg hn]; exact hns m x hp hfit

/-! ### what the invariants say -/

/-- the invariants of Props/Bytes.lean and Props/BytesCut.lean -/
def KeptInv (ns : NineServer σ) (x0 : σ) (s : Wired σ) : Prop := WInv ns x0 s ∨ ∃ k a, CutInv ns x0 k s a

theorem keptInv_step {P : TMsg → Prop} {ns : NineServer σ} (hns : Modest P ns) {x0 : σ} {s s' : Wired σ} {l : WLabel}
    (h : KeptInv ns x0 s) (hf : CallsFit P s.cl) (hf' : CallsFit P s'.cl) (hl : l ≠ .truncReq) (hs : WStep ns l s s') : KeptInv ns x0 s' := by
  rcases h with h | ⟨k, a, h⟩
  · by_cases hlt : l = .trunc
    · subst hlt
      cases hs with
      | clBodyEOF _ got n hr hi hrd hu hc =>
        obtain ⟨k, hk⟩ := cut_begin h hi hrd hu hc
        exact .inr ⟨k, _, hk⟩
    · exact .inl (wired_step hns h hf hf' hlt hl hs).1
  · obtain ⟨a', g1, -⟩ := cut_step hns h hf hf' hl hs
    exact .inr ⟨k, a', g1⟩

theorem written_once {a : State} (i1 : Inv a) (c : Nat) : (a.written.map Prod.fst).count c ≤ 1 := by
  have h1 := i1.wonce c
  have h2 := i1.once c
  have h3 := i1.calls c
  have h4 : (a.wire.map Prod.fst).count c ≤ ((a.wire.map wireFl).map Prod.fst).count (some c) := by
    have : (a.wire.map wireFl).map Prod.fst = (a.wire.map Prod.fst).map some := by simp [wireFl, Function.comp_def]
    rw [this]
    exact List.count_le_count_map
  simp only [allCalls, flights, List.map_append, List.count_append] at h2 h3
  cases hp : a.phase c <;> simp only [hp, Phase.w, Phase.d] at h2 h3 <;> omega

theorem order_once {ns : NineServer σ} {x0 : σ} {a : Sys σ} (h : SysInv ns x0 a) :
    (order a).Nodup ∧ order a <+: a.cl.written.map Prod.fst := by
  have hp : order a <+: a.cl.written.map Prod.fst := by
    rw [h.fifo, order]
    simp [Function.comp_def]
  refine ⟨?_, hp⟩
  refine hp.sublist.nodup (List.nodup_iff_count.2 fun c => written_once h.inv c)

theorem kept_said {ns : NineServer σ} {x0 : σ} {s : Wired σ} (h : KeptInv ns x0 s) :
    (served s).Nodup ∧ served s <+: s.cl.written.map Prod.fst ∧
    ∃ ms outs, (served s).map s.cl.msg = ms.map some ∧ runCalls ns ms x0 = some (s.srv.ns, outs) ∧
      ∃ k : Option Nat, ∀ c b, s.cl.phase c = .done b → ∃ (i : Nat) (m : TMsg) (r : Except GoString RMsg), (served s)[i]? = some c ∧
        ms[i]? = some m ∧ outs[i]? = some r ∧
        (some c ≠ k → ∀ spare, callT m spare b = asCall m r) ∧
        (some c = k → ∃ t n, 7 ≤ n ∧ n < (asPacket t r).length ∧ b = (asPacket t r).take n ∧
          ∀ spare x, callT m spare b = .ret x none → ∃ r0, r = .ok r0 ∧ r0.slack ((r0.packet t).length - n)) := by
  have key : ∀ {m : TMsg} {r : Except GoString RMsg} (t : Tag), GoodRes m r → ∀ spare, callT m spare (asPacket t r) = asCall m r := by
    intro m r t hg spare
    cases r with
    | ok r => exact (C35_call_results m spare t).1 r hg.1 hg.2
    | error x => exact (C35_call_results m spare t).2 x hg
  rcases h with h | ⟨k, a, h2⟩
  · obtain ⟨g1, g2⟩ := order_once h.sys
    refine ⟨g1, g2, ?_⟩
    obtain ⟨h', q1, q2, q3, q4⟩ := h.sys.hist
    have hord : served s = h'.map Entry.call := by
      have q1 : s.cl.replied = h'.map Entry.replied := q1
      rw [served, q1]; simp [Function.comp_def, Entry.replied]
    refine ⟨h'.map Entry.msg, h'.map Entry.out, ?_, q3, none, fun c b hc => ?_⟩
    · rw [hord, List.map_map, List.map_map]
      exact List.map_congr_left fun e he => q2 e he
    · obtain ⟨q, hq⟩ := h.sys.inv.done c b hc
      rw [q1] at hq
      obtain ⟨e, he, heq⟩ := List.mem_map.1 hq
      obtain ⟨i, hi', hie⟩ := List.getElem_of_mem he
      have hie : h'[i]? = some e := by rw [List.getElem?_eq_getElem hi', hie]
      simp only [Entry.replied, Prod.mk.injEq] at heq
      refine ⟨i, e.msg, e.out, by rw [hord]; simp [hie, heq.1], by simp [hie], by simp [hie], fun _ spare => ?_, nofun⟩
      rw [← heq.2.2]
      exact key e.tag (q4 e he) spare
  · have e2 : s.cl.msg = a.cl.msg := congrArg (fun x : Sys σ => x.cl.msg) h2.pk
    have e3 : s.srv = a.srv := congrArg (fun x : Sys σ => x.srv) h2.pk
    have e6 : s.cl.replied = a.cl.replied := congrArg (fun x : Sys σ => x.cl.replied) h2.pk
    have e7 : s.cl.written = a.cl.written := congrArg (fun x : Sys σ => x.cl.written) h2.pk
    have e8 : ∀ c, s.cl.phase c = k.phase c (a.cl.phase c) := fun c => congrArg (fun x : Sys σ => x.cl.phase c) h2.pk
    obtain ⟨hon, hop⟩ := order_once h2.sys
    obtain ⟨h, q1, q2, q3, q4⟩ := h2.sys.hist
    have hord : served s = h.map Entry.call := by
      rw [served, e6, q1]; simp [Function.comp_def, Entry.replied]
    refine ⟨by rw [served, e6]; exact hon, by rw [served, e6, e7]; exact hop, h.map Entry.msg, h.map Entry.out, ?_, by rw [e3]; exact q3,
      some k.c, fun c b hc => ?_⟩
    · rw [hord, List.map_map, List.map_map, e2]
      exact List.map_congr_left fun e he => q2 e he
    · rw [e8] at hc
      cases hp : a.cl.phase c with
      | done b0 =>
        simp only [hp, Cut.phase, Phase.done.injEq] at hc
        obtain ⟨q, hq⟩ := h2.sys.inv.done c b0 hp
        have hq0 := hq
        rw [q1] at hq
        obtain ⟨e, he', heq⟩ := List.mem_map.1 hq
        obtain ⟨i, hi', hie⟩ := List.getElem_of_mem he'
        have hie : h[i]? = some e := by rw [List.getElem?_eq_getElem hi', hie]
        simp only [Entry.replied, Prod.mk.injEq] at heq
        obtain ⟨hec, heq1, heq2⟩ := heq
        have hg := q4 e he'
        refine ⟨i, e.msg, e.out, by rw [hord]; simp [hie, hec], by simp [hie], by simp [hie], fun hk spare => ?_, fun hk => ?_⟩
        · have hb : b = b0 := by
            rw [← hc, Cut.bytes, if_neg]
            exact hk
          rw [hb, ← heq2]
          exact key e.tag hg spare
        · obtain ⟨q', p, w1, w2⟩ := h2.was
          simp only [Option.some.injEq] at hk
          have hpb : p = b0 := by
            rw [← hk] at w1
            have hnd : (a.cl.replied.map Prod.fst).Nodup := hon
            exact (Prod.mk.inj (nodup_fst hnd w1 hq0)).2
          subst hpb
          have hb : b = p.take k.n := by
            rw [← hc, Cut.bytes, if_pos (by rw [hk])]
          rw [← heq2] at hb w2
          exact ⟨e.tag, k.n, h2.seven, w2, hb, fun spare x hx => C92_cut_reply e.msg e.out hg e.tag k.n h2.seven w2 spare x (by rw [← hb]; exact hx)⟩
      | _ => simp [hp, Cut.phase] at hc

/-! ### the system with the other file server -/

def liftSrv (n : Nat) (x : Server σ) : Server (σ × Nat) := ⟨(x.ns, n), x.Versioned⟩

def lift (n : Nat) (s : Wired σ) : Wired (σ × Nat) :=
  ⟨s.cl, liftSrv n s.srv, s.up, s.upClosed, s.srvRd, s.down, s.downClosed, s.clRd, s.exited⟩

theorem sys_lift {ns : NineServer σ} {x0 : σ} {a : Sys σ} (h : SysInv ns x0 a) (k : Nat) (hk : a.cl.replied.length ≤ k) (m' : TMsg) :
    SysInv (swapped ns k m') (x0, 0) ⟨a.cl, liftSrv a.cl.replied.length a.srv⟩ := by
  refine ⟨h.inv, h.open_, h.versioned, h.fifo, ?_⟩
  obtain ⟨es, q1, q2, q3, q4⟩ := h.hist
  have hlen : a.cl.replied.length = es.length := by rw [q1]; simp
  refine ⟨es, q1, q2, ?_, q4⟩
  have := runCalls_unswapped ns k m' (es.map Entry.msg) (n := 0) (by simp; omega) q3
  simpa [liftSrv, hlen] using this

theorem kept_lift {ns : NineServer σ} {x0 : σ} {s : Wired σ} (h : KeptInv ns x0 s) (k : Nat) (hk : s.cl.replied.length ≤ k) (m' : TMsg) :
    KeptInv (swapped ns k m') (x0, 0) (lift s.cl.replied.length s) := by
  rcases h with h | ⟨c, a, h⟩
  · exact .inl ⟨sys_lift h.sys k hk m', h.up, h.down⟩
  · have e2 : s.cl.replied = a.cl.replied := congrArg (fun x : Sys σ => x.cl.replied) h.pk
    have e3 : s.srv = a.srv := congrArg (fun x : Sys σ => x.srv) h.pk
    have e4 : ({ s.cl with reader := fixReader s.cl.reader, recv := fixRecv s.cl.recv } : State) = c.state a.cl :=
      congrArg (fun x : Sys σ => x.cl) h.pk
    refine .inr ⟨c, ⟨a.cl, liftSrv s.cl.replied.length a.srv⟩, ?_, ?_, h.up, h.seven, h.down, h.closed, h.rd, h.was⟩
    · rw [e2] at hk ⊢
      exact sys_lift h.sys k hk m'
    · simp only [Wired.packets, lift, e4, e3]

/-- the server has what there is of the last request -/
def WaitsCut (got : Bytes) (s : Wired σ) : Prop := s.srvRd = .body got 0 ∧ s.up = [] ∧ s.upClosed = true

/-- the server reads no more requests -/
def EndsCut (s : Wired σ) : Prop := (s.srvRd = .hdr ∨ s.srvRd = .stopped) ∧ s.up = [] ∧ s.upClosed = true

theorem waits_step {ns : NineServer σ} {s s' : Wired σ} {got : Bytes} {l : WLabel} (h : WaitsCut got s) (hs : WStep ns l s s') :
    (l ≠ .truncReq ∧ WaitsCut got s' ∧ ∀ rd, WStep ns l { s with srvRd := rd } { s' with srvRd := rd }) ∨
    ∃ spare srv' b, dispatch ns s.srv ⟨[], got.drop 5, spare⟩ (got.getD 4 0) = .done srv' b ∧
      ((l = .step .reply ∧ s' = { s with cl := answered s.cl b.bytes, srv := srv', srvRd := .hdr, down := if s.downClosed then s.down else s.down ++ b.bytes }) ∨
       (l = .cut ∧ ∃ x, x <+: b.bytes ∧ s' = { s with cl := answered s.cl b.bytes, srv := srv', srvRd := .stopped, down := if s.downClosed then s.down else s.down ++ x, downClosed := true })) := by
  obtain ⟨hrd, hup, hcl⟩ := h
  have hnil : ∀ x r : Bytes, s.up = x ++ r → 0 < x.length → False := by
    intro x r hu h0
    rw [hup] at hu
    have := congrArg List.length hu
    simp at this
    omega
  cases hs with
  | client _ l' cl' hr hcs hst hw hn => exact .inl ⟨nofun, ⟨hrd, hup, hcl⟩, fun rd => .client { s with srvRd := rd } l' cl' hr hcs hst hw hn⟩
  | write _ d t hr hst => exact .inl ⟨nofun, ⟨hrd, by simp [hcl, hup], hcl⟩, fun rd => .write { s with srvRd := rd } d t hr hst⟩
  | writeFails _ d t x hr hst hx => exact .inl ⟨nofun, ⟨hrd, by simp [hcl, hup], rfl⟩, fun rd => .writeFails { s with srvRd := rd } d t x hr hst hx⟩
  | srvHdr _ x r hrd' hu hx => exact (hnil x r hu (by omega)).elim
  | srvShort _ x r hrd' hu h0 hx => exact (hnil x r hu h0).elim
  | srvBody _ g x r n hrd' hu h0 hx => exact (hnil x r hu h0).elim
  | srvEnd _ hrd' hu hc => rw [hrd] at hrd'; cases hrd'
  | srvBodyErr _ g n hrd' hu hc => rw [hrd] at hrd'; simp at hrd'
  | srvBodyEOF _ g n hrd' hu hc => rw [hrd] at hrd'; simp at hrd'
  | serve _ g spare srv' b hrd' hd =>
    rw [hrd, Rd.body.injEq] at hrd'
    obtain ⟨rfl, -⟩ := hrd'
    exact .inr ⟨spare, srv', b, hd, .inl ⟨rfl, rfl⟩⟩
  | serveFails _ g spare srv' b x hrd' hd hx =>
    rw [hrd, Rd.body.injEq] at hrd'
    obtain ⟨rfl, -⟩ := hrd'
    exact .inr ⟨spare, srv', b, hd, .inr ⟨rfl, x, hx, rfl⟩⟩
  | cutUp _ x y hu =>
    exact .inl ⟨nofun, ⟨hrd, (List.append_eq_nil_iff.1 (hup ▸ hu).symm).1, rfl⟩, fun rd => .cutUp { s with srvRd := rd } x y hu⟩
  | cutDown _ x y hu => exact .inl ⟨nofun, ⟨hrd, hup, hcl⟩, fun rd => .cutDown { s with srvRd := rd } x y hu⟩
  | clHdr _ x r hr h1 h2 h3 h4 => exact .inl ⟨nofun, ⟨hrd, hup, hcl⟩, fun rd => .clHdr { s with srvRd := rd } x r hr h1 h2 h3 h4⟩
  | clShort _ x r hr h1 h2 h3 h4 h5 => exact .inl ⟨nofun, ⟨hrd, hup, hcl⟩, fun rd => .clShort { s with srvRd := rd } x r hr h1 h2 h3 h4 h5⟩
  | clEnd _ hr h1 h2 h3 h4 => exact .inl ⟨nofun, ⟨hrd, hup, hcl⟩, fun rd => .clEnd { s with srvRd := rd } hr h1 h2 h3 h4⟩
  | clBody _ g x r n hr h1 h2 h3 h4 h5 => exact .inl ⟨nofun, ⟨hrd, hup, hcl⟩, fun rd => .clBody { s with srvRd := rd } g x r n hr h1 h2 h3 h4 h5⟩
  | clBodyErr _ g n hr h1 h2 h3 h4 => exact .inl ⟨nofun, ⟨hrd, hup, hcl⟩, fun rd => .clBodyErr { s with srvRd := rd } g n hr h1 h2 h3 h4⟩
  | clBodyEOF _ g n hr h1 h2 h3 h4 => exact .inl ⟨nofun, ⟨hrd, hup, hcl⟩, fun rd => .clBodyEOF { s with srvRd := rd } g n hr h1 h2 h3 h4⟩
  | clDone _ g hr h1 h2 => exact .inl ⟨nofun, ⟨hrd, hup, hcl⟩, fun rd => .clDone { s with srvRd := rd } g hr h1 h2⟩

theorem ends_step {ns : NineServer σ} {s s' : Wired σ} {l : WLabel} (h : EndsCut s) (hs : WStep ns l s s') :
    l ≠ .truncReq ∧ EndsCut s' ∧ s'.cl.replied = s.cl.replied ∧ ∀ (ns' : NineServer (σ × Nat)) n, WStep ns' l (lift n s) (lift n s') := by
  obtain ⟨hrd, hup, hcl⟩ := h
  have hnil : ∀ x r : Bytes, s.up = x ++ r → 0 < x.length → False := by
    intro x r hu h0
    rw [hup] at hu
    have := congrArg List.length hu
    simp at this
    omega
  have hno : ∀ g n, s.srvRd = .body g n → False := by
    intro g n h
    rcases hrd with hrd | hrd <;> (rw [h] at hrd; cases hrd)
  cases hs with
  | client _ l' cl' hr hcs hst hw hn =>
    exact ⟨nofun, ⟨hrd, hup, hcl⟩, by cases hst <;> first | exact hcs.elim | rfl, fun ns' n => .client (lift n s) l' cl' hr hcs hst hw hn⟩
  | write _ d t hr hst => exact ⟨nofun, ⟨hrd, by simp [hcl, hup], hcl⟩, rfl, fun ns' n => .write (lift n s) d t hr hst⟩
  | writeFails _ d t x hr hst hx => exact ⟨nofun, ⟨hrd, by simp [hcl, hup], rfl⟩, rfl, fun ns' n => .writeFails (lift n s) d t x hr hst hx⟩
  | srvHdr _ x r hrd' hu hx => exact (hnil x r hu (by omega)).elim
  | srvShort _ x r hrd' hu h0 hx => exact (hnil x r hu h0).elim
  | srvBody _ g x r n hrd' hu h0 hx => exact (hnil x r hu h0).elim
  | srvEnd _ hrd' hu hc => exact ⟨nofun, ⟨.inr rfl, hup, hcl⟩, rfl, fun ns' n => .srvEnd (lift n s) hrd' hu hc⟩
  | srvBodyErr _ g n hrd' hu hc => exact (hno _ _ hrd').elim
  | srvBodyEOF _ g n hrd' hu hc => exact (hno _ _ hrd').elim
  | serve _ g spare srv' b hrd' hd => exact (hno _ _ hrd').elim
  | serveFails _ g spare srv' b x hrd' hd hx => exact (hno _ _ hrd').elim
  | cutUp _ x y hu =>
    exact ⟨nofun, ⟨hrd, (List.append_eq_nil_iff.1 (hup ▸ hu).symm).1, rfl⟩, rfl, fun ns' n => .cutUp (lift n s) x y hu⟩
  | cutDown _ x y hu => exact ⟨nofun, ⟨hrd, hup, hcl⟩, rfl, fun ns' n => .cutDown (lift n s) x y hu⟩
  | clHdr _ x r hr h1 h2 h3 h4 => exact ⟨nofun, ⟨hrd, hup, hcl⟩, rfl, fun ns' n => .clHdr (lift n s) x r hr h1 h2 h3 h4⟩
  | clShort _ x r hr h1 h2 h3 h4 h5 => exact ⟨nofun, ⟨hrd, hup, hcl⟩, rfl, fun ns' n => .clShort (lift n s) x r hr h1 h2 h3 h4 h5⟩
  | clEnd _ hr h1 h2 h3 h4 => exact ⟨nofun, ⟨hrd, hup, hcl⟩, rfl, fun ns' n => .clEnd (lift n s) hr h1 h2 h3 h4⟩
  | clBody _ g x r k hr h1 h2 h3 h4 h5 => exact ⟨nofun, ⟨hrd, hup, hcl⟩, rfl, fun ns' n => .clBody (lift n s) g x r k hr h1 h2 h3 h4 h5⟩
  | clBodyErr _ g k hr h1 h2 h3 h4 => exact ⟨nofun, ⟨hrd, hup, hcl⟩, rfl, fun ns' n => .clBodyErr (lift n s) g k hr h1 h2 h3 h4⟩
  | clBodyEOF _ g k hr h1 h2 h3 h4 => exact ⟨nofun, ⟨hrd, hup, hcl⟩, rfl, fun ns' n => .clBodyEOF (lift n s) g k hr h1 h2 h3 h4⟩
  | clDone _ g hr h1 h2 => exact ⟨nofun, ⟨hrd, hup, hcl⟩, rfl, fun ns' n => .clDone (lift n s) g hr h1 h2⟩

/-- what the first request under way is -/
theorem kept_first {P : TMsg → Prop} {ns : NineServer σ} {x0 : σ} {s : Wired σ} (h : KeptInv ns x0 s) (hf : CallsFit P s.cl) {got : Bytes} {n : Nat}
    (hrd : s.srvRd = .body got n) (hu : s.up = []) :
    ∃ c m t y, s.cl.wire = (c, m.packet t) :: y ∧ s.cl.msg c = some m ∧ 7 ≤ got.length ∧ got.length + n = (m.packet t).length ∧ got <+: m.packet t := by
  have hup : Framed s.srvRd s.up s.upClosed (s.cl.wire.map Prod.snd) := by
    rcases h with h | ⟨k, a, h⟩ <;> exact h.up (by rw [hrd]; simp)
  have hwf : ∀ p ∈ s.cl.wire.map Prod.snd, p.length = pktLen p := by
    rcases h with h | ⟨k, a, h⟩
    · exact wire_framed h hf
    · exact cut_wire h hf
  have hwm : ∀ x ∈ s.cl.wire, ∃ m t, s.cl.msg x.1 = some m ∧ x.2 = m.packet t := by
    rcases h with h | ⟨k, a, h⟩
    · intro x hx
      obtain ⟨m, t, -, hm, hq⟩ := h.sys.inv.wire x hx
      exact ⟨m, t, hm, hq⟩
    · have e1 : s.cl.wire = a.cl.wire := congrArg (fun x : Sys σ => x.cl.wire) h.pk
      have e2 : s.cl.msg = a.cl.msg := congrArg (fun x : Sys σ => x.cl.msg) h.pk
      intro x hx
      rw [e1] at hx
      rw [e2]
      obtain ⟨m, t, -, hm, hq⟩ := h.sys.inv.wire x hx
      exact ⟨m, t, hm, hq⟩
  rw [hrd, hu] at hup
  obtain ⟨p, qs, k1, k2⟩ := hup.first hwf
  match hw : s.cl.wire, k1 with
  | (c, q) :: y, k1 =>
    simp only [List.map_cons, List.cons.injEq] at k1
    obtain ⟨rfl, rfl⟩ := k1
    obtain ⟨m, t, hm, hq⟩ := hwm (c, q) (by rw [hw]; simp)
    simp only at hq hm
    subst hq
    refine ⟨c, m, t, y, rfl, hm, (hup.shape _ _ rfl).1, k2, ?_⟩
    have := hup.pre
    simp only [Rd.got, hw, List.map_cons, List.flatten_cons, List.append_nil] at this
    exact List.prefix_of_prefix_length_le this (List.prefix_append _ _) (by omega)

/-- the server may as well have the whole request -/
theorem kept_whole {ns : NineServer σ} {x0 : σ} {s : Wired σ} {got : Bytes} {n : Nat} (h : KeptInv ns x0 { s with srvRd := .body got n })
    (hu : s.up = []) (hc : s.upClosed = true) {q : Bytes} {c : Nat} {y : List (Nat × Bytes)} (hw : s.cl.wire = (c, q) :: y)
    (hq : q.length = pktLen q) (h7 : 7 ≤ q.length) : KeptInv ns x0 { s with srvRd := .body q 0 } := by
  have hfr : Framed (.body q 0) s.up s.upClosed (s.cl.wire.map Prod.snd) := by
    refine ⟨?_, fun h => (by rw [hc] at h; cases h), fun g n he => ?_⟩
    · rw [hu, hw]; simp [Rd.got]
    · simp only [Rd.body.injEq] at he
      obtain ⟨rfl, rfl⟩ := he
      exact ⟨h7, by omega⟩
  rcases h with h | ⟨k, a, h⟩
  · exact .inl ⟨h.sys, fun _ => hfr, h.down⟩
  · exact .inr ⟨k, a, h.sys, h.pk, fun _ => hfr, h.seven, h.down, h.closed, h.rd, h.was⟩

/-- a Twalk cut off inside of the number of names: the second byte of the number is that of the new fid -/
theorem walk_nine (p p' : TwalkPkt) (t t' : Tag) (x : Byte) (spare : Bytes) {e : Option DecErr} {b1 : Buffer}
    (h : decT (.walk p) ⟨[], le 2 t.toNat ++ (le 4 p.SFID.toNat ++ (le 4 p.NewFID.toNat ++ [x])), spare⟩ = .done (.walk p') t' e b1) :
    p'.Paths.length = x.toNat + 256 * second p.NewFID.toNat := by
  obtain ⟨q, h1, h2⟩ := map_done h
  cases h2
  unfold unmarshalTwalk Dec.run at h1
  obtain ⟨t1, r1, g1⟩ := (cuts_tag (R := TwalkPkt)).fwd t trivial [] (le 4 p.SFID.toNat ++ (le 4 p.NewFID.toNat ++ [x])) spare (fun _ => 0) 0 {}
  rw [bind_ok g1] at h1
  obtain ⟨t2, r2, g2⟩ := (cuts_u32 fun v (r : TwalkPkt) => { r with SFID := v }).fwd p.SFID trivial ([] ++ le 2 t.toNat) (le 4 p.NewFID.toNat ++ [x]) spare
    (over (le 2 t.toNat) fun _ => 0) t1 r1
  rw [bind_ok g2] at h1
  obtain ⟨t3, r3, g3⟩ := (cuts_u32 fun v (r : TwalkPkt) => { r with NewFID := v }).fwd p.NewFID trivial ([] ++ le 2 t.toNat ++ le 4 p.SFID.toNat) [x] spare
    (over (le 4 p.SFID.toNat) (over (le 2 t.toNat) fun _ => 0)) t2 r2
  rw [bind_ok g3] at h1
  have hu := over_1 p.NewFID.toNat 4 (by simp) (over (le 4 p.SFID.toNat) (over (le 2 t.toNat) fun _ => 0))
  generalize over (le 4 p.NewFID.toNat) (over (le 4 p.SFID.toNat) (over (le 2 t.toNat) fun _ => 0)) = u at h1 hu
  generalize [] ++ le 2 t.toNat ++ le 4 p.SFID.toNat ++ le 4 p.NewFID.toNat = pre at h1
  have hx : UInt8.ofNat (x.toNat % 256) = x := by
    rw [Nat.mod_eq_of_lt x.toNat_lt]; simp
  have hl := over_low (n := x.toNat) u
  rw [hx, hu, Nat.mod_eq_of_lt x.toNat_lt] at hl
  rw [← hl]
  unfold getStrings at h1
  rw [dec_assoc, bind_ok (readU_over 2 _ [x] pre spare u t3 r3 (by simp))] at h1
  simp only [List.take_of_length_le (show [x].length ≤ 2 by simp), List.drop_eq_nil_of_le (show [x].length ≤ 2 by simp)] at h1
  generalize (asmLen16 (over [x] u)).toNat = n at h1
  rw [dec_assoc, bind_ok (show setR (fun r : TwalkPkt => { r with Paths := List.replicate n [] }) _ = .ok () _ from rfl)] at h1
  cases n with
  | zero =>
    have := h1
    cases h1
    simp
  | succ n =>
    rw [forRange, dec_assoc] at h1
    unfold getString at h1
    rw [dec_assoc] at h1
    have hr : ∀ s : DSt TwalkPkt, s.b.unread = [] → ∃ b, readU 2 (.shortInt 16) s = .ret (.shortInt 16) { s with b := b } := by
      intro s hs
      simp [readU, Buffer.read, hs]
    obtain ⟨b, hb⟩ := hr ⟨⟨pre ++ [x], [], spare⟩, over [x] u, t3, { r3 with Paths := List.replicate (n + 1) [] }⟩ rfl
    rw [bind_ret hb] at h1
    cases h1
    simp
/-- what the server makes of the beginning of a request is what it makes of the request with the other file server -/
theorem cut_dispatch {ns : NineServer σ} {m : TMsg} {t : Tag} (hm : m.Fits) (hl : (m.packet t).length < 2 ^ 32) {got : Bytes} (hg : got <+: m.packet t)
    (h7 : 7 ≤ got.length) (hlt : got.length < (m.packet t).length) {srv srv' : Server σ} (hv : srv.Versioned = true) {spare : Bytes} {b : Buffer}
    (hd : dispatch ns srv ⟨[], got.drop 5, spare⟩ (got.getD 4 0) = .done srv' b) :
    ∃ m', CutTo m m' ∧ m'.Fits ∧ ∀ n, ∃ b', b'.bytes = b.bytes ∧
      dispatch (swapped ns n m') (liftSrv n srv) ⟨[], (m.packet t).drop 5, spare⟩ ((m.packet t).getD 4 0) = .done (liftSrv (n + 1) srv') b' := by
  obtain ⟨h1, h2, h3⟩ := packet_framing m t hl
  have hgt : got = (m.packet t).take got.length := List.prefix_iff_eq_take.1 hg
  have hpl : (m.packet t).length = 7 + m.fields.length := by
    simp only [TMsg.packet, Spec.packet, TMsg.body, List.length_append, le_length]; omega
  have hty : got.getD 4 0 = m.ty := by
    rw [← h2, hgt]
    simp only [List.getD_eq_getElem?_getD]
    rw [List.getElem?_take_of_lt (by omega)]
  have hbody : got.drop 5 = le 2 t.toNat ++ m.fields.take (got.length - 7) := by
    rw [hgt, List.drop_take, h3, TMsg.body, List.take_append, List.take_of_length_le (by simp; omega)]
    simp [Nat.sub_sub, Nat.min_eq_left (Nat.le_of_lt hlt)]
  rw [hty] at hd
  obtain ⟨x, v⟩ := srv
  subst hv
  rw [dispatch_request _ m _ _ (.inl rfl), hbody] at hd
  cases hdec : decT m ⟨[], le 2 t.toNat ++ m.fields.take (got.length - 7), spare⟩ with
  | panic => rw [hdec] at hd; cases hd
  | done m' t' e b1 =>
    obtain ⟨rfl, hm1, hm2⟩ := decT_madeOf m t _ [] spare hdec
    refine ⟨m', ⟨hm1, got.length - 7, by omega, hm2, ?_⟩, hm2.fits, fun n => ?_⟩
    · rintro p p' rfl rfl h9
      rw [h9] at hdec
      have hfl : (TMsg.walk p).fields.take 9 = le 4 p.SFID.toNat ++ (le 4 p.NewFID.toNat ++ [UInt8.ofNat (p.Paths.length % 256)]) := by
        simp [TMsg.fields, le]
      rw [hfl] at hdec
      rw [walk_nine p p' _ _ _ _ hdec]
      simp [second]
    · rw [hdec] at hd
      rw [h2, h3, dispatch_request _ m _ _ (.inl rfl), (lawsT m).fwd hm]
      unfold handle at hd ⊢
      simp only [liftSrv, call_swapped, if_pos hm1, if_true]
      cases hcl : call ns m' x with
      | panic => simp only [hcl] at hd; cases hd
      | ok x' r =>
        simp only [hcl] at hd
        cases hd
        exact ⟨_, by rw [encodeR_bytes, encodeR_bytes], rfl⟩
      | err x' r =>
        simp only [hcl] at hd
        cases hd
        exact ⟨_, by rw [encodeR_bytes, encodeR_bytes], rfl⟩

/-- the server has dealt with the beginning of a request -/
structure After (ns : NineServer σ) (Q : TMsg → Prop) (x0 : σ) (s : Wired σ) (n c : Nat) (m m' : TMsg) : Prop where
  cut : CutTo m m'
  fits : m'.Fits
  ok : Q m'
  len : s.cl.replied.length = n + 1
  msg : s.cl.msg c = some m
  last : (served s).getLast? = some c
  kept : KeptInv (swapped ns n m') (x0, 0) (lift (n + 1) s)
  ends : EndsCut s

def AnyInv (ns : NineServer σ) (Q : TMsg → Prop) (x0 : σ) (s : Wired σ) : Prop :=
  KeptInv ns x0 s ∨ (∃ got n, WaitsCut got s ∧ KeptInv ns x0 { s with srvRd := .body got (n + 1) }) ∨ ∃ n c m m', After ns Q x0 s n c m m'

theorem kept_versioned {ns : NineServer σ} {x0 : σ} {s : Wired σ} (h : KeptInv ns x0 s) : s.srv.Versioned = true := by
  rcases h with h | ⟨k, a, h⟩
  · exact h.sys.versioned
  · have e3 : s.srv = a.srv := congrArg (fun x : Sys σ => x.srv) h.pk
    rw [e3]
    exact h.sys.versioned

theorem anyInv_step {P Q : TMsg → Prop} {ns : NineServer σ} (hns : Modest Q ns) (hPQ : ∀ m, P m → Q m) (hP : ∀ m m', P m → m.Fits → CutTo m m' → Q m') {x0 : σ} {s s' : Wired σ} {l : WLabel}
    (h : AnyInv ns Q x0 s) (hf : CallsFit P s.cl) (hf' : CallsFit P s'.cl) (hfr : Fresh s.cl) (hs : WStep ns l s s') : AnyInv ns Q x0 s' := by
  have hmod : Modest P ns := fun m x hp => hns m x (hPQ m hp)
  rcases h with h | ⟨got, n, hw, h⟩ | ⟨n, c, m, m', h⟩
  · by_cases hl : l = .truncReq
    · subst hl
      cases hs with
      | srvBodyEOF _ got n hrd hu hc =>
        refine .inr (.inl ⟨got, n, ⟨rfl, hu, hc⟩, ?_⟩)
        rw [← hrd]
        exact h
    · exact .inl (keptInv_step hmod h hf hf' hl hs)
  · rcases waits_step hw hs with ⟨hl, hw', hst⟩ | ⟨spare, srv', b, hd, hres⟩
    · exact .inr (.inl ⟨got, n, hw', keptInv_step hmod h hf hf' hl (hst _)⟩)
    · right; right
      obtain ⟨c, m, t, y, k1, k2, k3, k4, k5⟩ := kept_first h hf rfl hw.2.1
      replace k1 : s.cl.wire = (c, m.packet t) :: y := k1
      replace k2 : s.cl.msg c = some m := k2
      obtain ⟨hPm, hmf, hml⟩ := hf c m k2
      obtain ⟨m', hcut, hfit, hdis⟩ := cut_dispatch hmf (hml t) k5 k3 (by omega) (kept_versioned h) hd
      obtain ⟨b', hb', hd'⟩ := hdis s.cl.replied.length
      have hPm' := hP m m' hPm hmf hcut
      have hwh := kept_whole h hw.2.1 hw.2.2 (q := m.packet t) k1 (packet_framing m t (hml t)).1 (by omega)
      have hlf := kept_lift hwh s.cl.replied.length (Nat.le_refl _) m'
      have hans := answered_cons (b := b.bytes) k1
      have hns' := swapped_modest hns hPQ s.cl.replied.length hPm' hfit
      refine ⟨s.cl.replied.length, c, m, m', hcut, hfit, hPm', ?_, ?_, ?_, ?_, ?_⟩
      · rcases hres with ⟨-, rfl⟩ | ⟨-, x, -, rfl⟩ <;> simp [hans]
      · rcases hres with ⟨-, rfl⟩ | ⟨-, x, -, rfl⟩ <;> simp [hans, k2]
      · rcases hres with ⟨-, rfl⟩ | ⟨-, x, -, rfl⟩ <;> simp [hans, served]
      · rcases hres with ⟨-, rfl⟩ | ⟨-, x, hx, rfl⟩
        · have hst := WStep.serve (ns := swapped ns s.cl.replied.length m') (lift s.cl.replied.length { s with srvRd := .body (m.packet t) 0 })
            (m.packet t) spare _ b' rfl hd'
          rw [hb'] at hst
          exact keptInv_step hns' hlf hf hf' (by simp) hst
        · have hst := WStep.serveFails (ns := swapped ns s.cl.replied.length m') (lift s.cl.replied.length { s with srvRd := .body (m.packet t) 0 })
            (m.packet t) spare _ b' x rfl hd' (by rw [hb']; exact hx)
          rw [hb'] at hst
          exact keptInv_step hns' hlf hf hf' (by simp) hst
      · rcases hres with ⟨-, rfl⟩ | ⟨-, x, hx, rfl⟩
        · exact ⟨.inl rfl, hw.2⟩
        · exact ⟨.inr rfl, hw.2⟩
  · obtain ⟨hl, he, hr, hst⟩ := ends_step h.ends hs
    refine .inr (.inr ⟨n, c, m, m', h.cut, h.fits, h.ok, by rw [hr]; exact h.len, (wired_fresh hfr hs).2 _ _ h.msg, ?_, ?_, he⟩)
    · have := h.last
      rw [served] at this ⊢
      rwa [hr]
    · exact keptInv_step (swapped_modest hns hPQ n h.ok h.fits) h.kept hf hf' hl (hst _ _)

theorem anyInv_exec {P Q : TMsg → Prop} {ns : NineServer σ} (hns : Modest Q ns) (hPQ : ∀ m, P m → Q m) (hP : ∀ m m', P m → m.Fits → CutTo m m' → Q m') {x0 : σ} {s : Wired σ} {L : WLabel → Prop}
    (he : WExec ns L (Wired.start x0) s) (hf : CallsFit P s.cl) : AnyInv ns Q x0 s := by
  generalize hs0 : Wired.start x0 = s0 at he
  induction he with
  | refl => subst hs0; exact .inl (.inl (wired_init ns x0))
  | step b d l he hl hst ih =>
    subst hs0
    have hfr := (wired_fresh_exec (s := Wired.start x0) (fun c _ => rfl) he).1
    have hfa : CallsFit P b.cl := fun c m hm => hf c m ((wired_fresh hfr hst).2 c m hm)
    exact anyInv_step hns hPQ hP (ih hfa) hfa hf hfr hst

/-- **C92, partial**, all executions: the connection may end anywhere, in a request and in a reply.  The server deals with
every request at most once and in the order in which they were written.  Calling the methods of the file server one after
the other, with the arguments of these requests - but for the last one, of which some of the fields may not have arrived -
gives the state of the file server and the results; and every call that returns returns its own result, except for
at most one, the reply to which has been cut off and which then returns an error or the result with something missing. -/
theorem C92_any_partial (P Q : TMsg → Prop) (ns : NineServer σ) (hns : Modest Q ns) (hPQ : ∀ m, P m → Q m)
    (hP : ∀ m m', P m → m.Fits → CutTo m m' → Q m') (x0 : σ) (s : Wired σ)
    (he : WExec ns (fun _ => True) (Wired.start x0) s) (hf : CallsFit P s.cl) :
    (served s).Nodup ∧ served s <+: s.cl.written.map Prod.fst ∧
    ∃ ms acted outs, (served s).map s.cl.msg = ms.map some ∧ Acted ms acted ∧ runCalls ns acted x0 = some (s.srv.ns, outs) ∧
      ∃ k : Option Nat, ∀ c b, s.cl.phase c = .done b → ∃ (i : Nat) (m : TMsg) (r : Except GoString RMsg), (served s)[i]? = some c ∧
        ms[i]? = some m ∧ outs[i]? = some r ∧
        (some c ≠ k → ∀ spare, callT m spare b = asCall m r) ∧
        (some c = k → ∃ t n, 7 ≤ n ∧ n < (asPacket t r).length ∧ b = (asPacket t r).take n ∧
          ∀ spare x, callT m spare b = .ret x none → ∃ r0, r = .ok r0 ∧ r0.slack ((r0.packet t).length - n)) := by
  rcases anyInv_exec hns hPQ hP he hf with h | ⟨got, n, hw, h⟩ | ⟨n, c, m, m', h⟩
  · obtain ⟨h1, h2, ms, outs, h3, h4, h5⟩ := kept_said h
    exact ⟨h1, h2, ms, ms, outs, h3, .inl rfl, h4, h5⟩
  · obtain ⟨h1, h2, ms, outs, h3, h4, h5⟩ := kept_said h
    exact ⟨h1, h2, ms, ms, outs, h3, .inl rfl, h4, h5⟩
  · obtain ⟨h1, h2, ms, outs, h3, h4, h5⟩ := kept_said h.kept
    refine ⟨h1, h2, ms, actsFrom n m' 0 ms, outs, h3, .inr ?_, (runCalls_swapped ns n m' ms (y := s.srv.ns) h4).2, h5⟩
    have hlen : ms.length = n + 1 := by
      have := congrArg List.length h3
      simp only [List.length_map] at this
      rw [← this]
      exact (List.length_map _).trans h.len
    have hlast : ms.getLast? = some m := by
      have := congrArg List.getLast? h3
      rw [List.getLast?_map, List.getLast?_map] at this
      have hl := h.last
      have hl' : (served (lift (n + 1) s)).getLast? = some c := hl
      rw [hl'] at this
      have hm : (lift (n + 1) s).cl.msg c = some m := h.msg
      simp only [Option.map_some, hm] at this
      cases hg : ms.getLast? with
      | none => rw [hg] at this; cases this
      | some m1 => rw [hg] at this; simpa using this.symm
    have hne : ms ≠ [] := by rintro rfl; simp at hlen
    have hms : ms = ms.dropLast ++ [m] := by
      rw [List.getLast?_eq_some_getLast hne, Option.some.injEq] at hlast
      rw [← hlast, List.dropLast_concat_getLast]
    refine ⟨ms.dropLast, m, m', hms, ?_, h.cut⟩
    have hdl : ms.dropLast.length = n := by simp [hlen]
    conv => lhs; rw [hms]
    rw [actsFrom_append, actsFrom_before _ _ _ _ (by omega)]
    simp [actsFrom, hdl]

/-- C92: an execution with an end of file inside of a request; a Twrite of which two bytes of data are missing -/
example : (∃ s, WExec sumNS (fun _ => True) (Wired.start 0) s ∧ CallsFit (fun _ => True) s.cl ∧ s.srv.ns = 11) ∧
    runCalls sumNS [.write ⟨7, 0, [1, 5, 5]⟩] 0 = some (11, [.ok (.write ⟨3⟩)]) ∧
    Acted [.write ⟨7, 0, [1, 2, 3]⟩] [.write ⟨7, 0, [1, 5, 5]⟩] := by
  refine ⟨?_, rfl, .inr ⟨[], _, _, rfl, rfl, rfl, 17, by decide, ⟨by simp [TMsg.Fits], by decide, ?_, by decide, by decide, by decide⟩, nofun⟩⟩
  · obtain ⟨s, b, h1, h2, -, -, -, -, h3, -⟩ := C92_counterexample_write
    exact ⟨s, wexec_weaken (fun _ _ => trivial) h1, h2, h3⟩
  · decide

end Ninep.Client

namespace Ninep.Ufs
open Spec Client
variable {ω H : Type} {host : Host ω H} {user : GoString}

/-- requests whose own text, quoted in an error, fits a string -/
def BriefReq : TMsg → Prop
  | .version p => p.TVersion.length ≤ 65000
  | .walk p => (p.Paths.map List.length).sum + p.Paths.length ≤ 65000
  | _ => True

/-- the same, also when the request is cut off and the second byte of the new fid becomes that of the number of names -/
def BriefCut : TMsg → Prop
  | .walk p => (p.Paths.map List.length).sum + p.Paths.length ≤ 65000 ∧ p.NewFID.toNat / 256 % 256 ≤ 252
  | m => BriefReq m

theorem readDir_any (hh : host.Short) (p : TreadPkt) (fid : FID) (f : File H) (h : H) (c : Count) (s : State ω H) :
    GoodOut (.read p) (mapRes (fun q => RMsg.read ⟨q⟩) (readDir host user fid f h c s)) := by
  have key : ∀ (s : State ω H) (d : Bytes), d = [] ∨ (d.length : Int) ≤ c.toInt → GoodOut (.read p) (.ok s (.read ⟨d⟩)) := by
    intro s d hd
    have := c.toInt_lt
    have hl : d.length < 2 ^ 31 := by
      rcases hd with rfl | hd
      · simp
      · omega
    refine ⟨?_, fun t => ?_⟩
    · simp only [RMsg.Fits]; omega
    · simp [RMsg.packet, Spec.packet, RMsg.body, RMsg.fields ]; omega
  unfold readDir
  dsimp only
  split
  · exact key _ _ (.inl rfl)
  · generalize hr : host.readdir1 h _ = r
    obtain ⟨w, r⟩ := r
    cases r with
    | eof => exact key _ _ (.inr (by omega))
    | fail e => exact hh.readdir1 _ _ _ _ hr
    | entry st =>
      dsimp only
      split
      · exact key _ _ (.inl rfl)
      · exact key _ _ (.inr (by omega))

theorem ufs_any (hh : host.Short) (hu : user.length < 2 ^ 13) : Modest BriefReq (ufs host user) := by
  intro m x hm hf
  suffices GoodOut m (call (ufs host user) m x) from
    ⟨fun x' r h => by rw [h] at this; exact this, fun x' e h => by rw [h] at this; exact this⟩
  cases m with
  | read p =>
    by_cases hc : 0 ≤ p.Len.toInt
    · exact ufs_good hh hu (.read p) x hc hf
    · simp only [call, ufs, rread]
      split
      · exact noent_short
      · split
        · exact (by decide : (lit "FID not open").length < 2 ^ 16)
        · split
          · split
            · generalize hk : host.seek0 _ _ = r
              obtain ⟨w, r⟩ := r
              cases r with
              | some e => exact hh.seek0 _ _ _ _ hk
              | none => exact readDir_any hh p _ _ _ _ _
            · exact readDir_any hh p _ _ _ _ _
          · rw [if_pos (by omega)]
            exact ⟨p, rfl, by omega⟩
  | version p => exact ufs_good hh hu _ x hm hf
  | walk p => exact ufs_good hh hu _ x hm hf
  | _ => exact ufs_good hh hu _ x trivial hf

theorem str_all_zero {s : GoString} (hs : s.length < 2 ^ 16) (h : ∀ x ∈ str s, x = 0) : s = [] := by
  have h1 : leVal (le 2 s.length) = s.length := by
    rw [leVal_le, Nat.mod_eq_of_lt (by omega)]
  have h2 : le 2 s.length = [0, 0] := by
    have e : le 2 s.length = [UInt8.ofNat (s.length % 256), UInt8.ofNat (s.length / 256 % 256)] := by simp [le]
    have ha := h (UInt8.ofNat (s.length % 256)) (by simp [str, e])
    have hb := h (UInt8.ofNat (s.length / 256 % 256)) (by simp [str, e])
    rw [e, ha, hb]
  rw [h2] at h1
  exact List.length_eq_zero_iff.1 h1.symm

theorem strs_zero {l : List GoString} (hl : ∀ s ∈ l, s.length < 2 ^ 16) (h : ∀ x ∈ (l.map str).flatten, x = 0) : ∀ s ∈ l, s = [] := by
  intro s hs
  refine str_all_zero (hl s hs) fun x hx => h x ?_
  simp only [List.mem_flatten, List.mem_map]
  exact ⟨_, ⟨s, hs, rfl⟩, hx⟩

theorem len_zero {n : Nat} (hn : n < 2 ^ 16) (h : ∀ x ∈ le 2 n, x = 0) : n = 0 := by
  have := str_all_zero (s := List.replicate n 0) (by simpa using hn) (by
    intro x hx
    simp only [str, List.length_replicate, List.mem_append, List.mem_replicate] at hx
    rcases hx with hx | hx
    · exact h x hx
    · exact hx.2)
  simpa using congrArg List.length this

theorem front_short {s b : Bytes} (hs : s.length < 2 ^ 16) (hb : b <+: str s) (hl : b.length < (str s).length) : Kind.str.front b = none := by
  simp only [Kind.front]
  rw [if_neg]
  rintro ⟨h1, h2⟩
  have : b.take 2 = le 2 s.length := by
    rw [List.prefix_iff_eq_take.1 hb, List.take_take, Nat.min_eq_left h1, str]
    exact List.take_left' (by simp)
  rw [this, leVal_le, Nat.mod_eq_of_lt (by omega)] at h2
  rw [str_length] at hl
  omega

theorem num_short {n : Nat} {b : Bytes} (h : b.length < n) : (Kind.num n).front b = none := by
  simp only [Kind.front]
  rw [if_neg (by omega)]

/-- the names of which there is the beginning -/
theorem wholes_cut (l : List GoString) (hl : ∀ s ∈ l, s.length < 2 ^ 16) (b : Bytes) (hb : b <+: (l.map str).flatten)
    (hlen : b.length < (l.map str).flatten.length) :
    ∃ j, ((Layout.strs l.length).wholes b).1 = (l.take j).map str ∧ j ≤ l.length ∧ ((Layout.strs l.length).wholes b).2.2 = some .str := by
  induction l generalizing b with
  | nil => simp at hlen
  | cons s l ih =>
    simp only [List.map_cons, List.flatten_cons] at hb hlen
    simp only [List.length_cons, Layout.strs, Layout.wholes]
    rcases prefix_append_cases hb hlen with ⟨h1, h2⟩ | ⟨w, rfl, h1, h2⟩
    · rw [front_short (hl s (by simp)) h1 h2]
      exact ⟨0, by simp⟩
    · rw [front_str s w (hl s (by simp))]
      obtain ⟨j, g1, g2, g3⟩ := ih (fun x hx => hl x (by simp [hx])) w h1 h2
      exact ⟨j + 1, by simp [g1], by simp [g2], g3⟩

theorem brief_walk {p p' : TwalkPkt} (hp : BriefCut (.walk p)) (hf : (TMsg.walk p).Fits) (h : CutTo (.walk p) (.walk p')) : BriefReq (.walk p') := by
  obtain ⟨-, n, hn, hm, h9⟩ := h
  obtain ⟨hp1, hp2⟩ := hp
  obtain ⟨f1, f2⟩ := hf
  obtain ⟨f1', f2'⟩ := hm.fits
  have hfl : (TMsg.walk p).fields = le 4 p.SFID.toNat ++ (le 4 p.NewFID.toNat ++ (le 2 p.Paths.length ++ (p.Paths.map str).flatten)) := by
    simp [TMsg.fields]
  have hempty : (∀ s ∈ p'.Paths, s = []) → (p'.Paths.map List.length).sum = 0 := by
    intro h
    generalize p'.Paths = l at h
    induction l with
    | nil => rfl
    | cons s l ih => simp [h s (by simp), ih (fun x hx => h x (by simp [hx]))]
  have hnone : p'.Paths.length = 0 → BriefReq (.walk p') := by
    intro h
    have : p'.Paths = [] := List.length_eq_zero_iff.1 h
    simp [BriefReq, this]
  have hbit : ∀ x ∈ le 2 p'.Paths.length, x ∈ ((TMsg.walk p').parts.drop 2).flatten := by
    intro x hx
    simp only [TMsg.parts, List.drop_succ_cons, List.drop_zero, List.flatten_cons, List.mem_append]
    exact .inl hx
  have hsub : ∀ i, i ≤ 2 → ∀ x ∈ ((TMsg.walk p').parts.drop 2).flatten, x ∈ ((TMsg.walk p').parts.drop i).flatten := by
    intro i hi x hx
    rw [show 2 = i + (2 - i) by omega, ← List.drop_drop] at hx
    obtain ⟨l, hl, hx⟩ := List.mem_flatten.1 hx
    exact List.mem_flatten.2 ⟨l, List.mem_of_mem_drop hl, hx⟩
  have hzero : ∀ i, i ≤ 2 → (∀ x ∈ ((TMsg.walk p').parts.drop i).flatten, x = 0) → BriefReq (.walk p') :=
    fun i hi h => hnone (len_zero f1' fun x hx => h x (hsub i hi x (hbit x hx)))
  rw [hfl] at hm hn
  simp only [List.length_append, le_length] at hn
  by_cases n4 : n < 4
  · have hw : ∃ r, (TMsg.walk p').layout.wholes ((le 4 p.SFID.toNat ++ (le 4 p.NewFID.toNat ++ (le 2 p.Paths.length ++ (p.Paths.map str).flatten))).take n) =
        ([], r, some (.num 4)) := by
      simp only [TMsg.layout, Layout.wholes]
      rw [num_short (by simp; omega)]
      exact ⟨_, rfl⟩
    obtain ⟨r, hw⟩ := hw
    have := hm.rest
    rw [hw] at this
    exact hzero 1 (by omega) this
  · have e4 : ∀ r : Bytes, (le 4 p.SFID.toNat ++ r).take n = le 4 p.SFID.toNat ++ r.take (n - 4) := by
      intro r
      rw [List.take_append, List.take_of_length_le (by simp; omega), le_length]
    rw [e4] at hm
    by_cases n8 : n < 8
    · have hw : ∃ r, (TMsg.walk p').layout.wholes (le 4 p.SFID.toNat ++ (le 4 p.NewFID.toNat ++ (le 2 p.Paths.length ++ (p.Paths.map str).flatten)).take (n - 4)) =
          ([le 4 p.SFID.toNat], r, some (.num 4)) := by
        simp only [TMsg.layout, Layout.wholes]
        rw [front_num]
        simp only []
        rw [num_short (by simp; omega)]
        exact ⟨_, rfl⟩
      obtain ⟨r, hw⟩ := hw
      have := hm.rest
      rw [hw] at this
      exact hzero 2 (by omega) this
    · have e8 : ∀ r : Bytes, (le 4 p.NewFID.toNat ++ r).take (n - 4) = le 4 p.NewFID.toNat ++ r.take (n - 8) := by
        intro r
        rw [List.take_append, List.take_of_length_le (by simp; omega), le_length, Nat.sub_sub]
      rw [e8] at hm
      by_cases n10 : n < 10
      · have hw : (TMsg.walk p').layout.wholes (le 4 p.SFID.toNat ++ (le 4 p.NewFID.toNat ++ (le 2 p.Paths.length ++ (p.Paths.map str).flatten).take (n - 8))) =
            ([le 4 p.SFID.toNat, le 4 p.NewFID.toNat], (le 2 p.Paths.length ++ (p.Paths.map str).flatten).take (n - 8), some (.num 2)) := by
          simp only [TMsg.layout, Layout.wholes]
          rw [front_num]
          simp only []
          rw [front_num]
          simp only []
          rw [num_short (by simp; omega)]
        by_cases h8 : n = 8
        · have := hm.none
          rw [hw] at this
          exact hzero 2 (by omega) (this (by simp [h8]))
        · have := hm.rest
          rw [hw] at this
          have hs := hempty (strs_zero f2' (by simpa [TMsg.parts] using this))
          have hc := h9 p p' rfl rfl (by omega)
          show (p'.Paths.map List.length).sum + p'.Paths.length ≤ 65000
          omega
      · have e10 : ∀ r : Bytes, (le 2 p.Paths.length ++ r).take (n - 8) = le 2 p.Paths.length ++ r.take (n - 10) := by
          intro r
          rw [List.take_append, List.take_of_length_le (by simp; omega), le_length, Nat.sub_sub]
        rw [e10] at hm
        obtain ⟨j, j1, j2, j3⟩ := wholes_cut p.Paths f2 ((p.Paths.map str).flatten.take (n - 10)) (List.take_prefix _ _) (by rw [List.length_take]; omega)
        have hv : leVal (le 2 p.Paths.length) = p.Paths.length := by
          rw [leVal_le, Nat.mod_eq_of_lt (by omega)]
        have hw : ∃ r, (TMsg.walk p').layout.wholes (le 4 p.SFID.toNat ++ (le 4 p.NewFID.toNat ++ (le 2 p.Paths.length ++ (p.Paths.map str).flatten.take (n - 10)))) =
            (le 4 p.SFID.toNat :: le 4 p.NewFID.toNat :: le 2 p.Paths.length :: (p.Paths.take j).map str, r, some .str) := by
          simp only [TMsg.layout, Layout.wholes]
          rw [front_num]
          simp only []
          rw [front_num]
          simp only []
          rw [front_num]
          simp only [hv, j1]
          exact ⟨_, by rw [← j3]⟩
        obtain ⟨r, hw⟩ := hw
        have h1 := hm.whole
        have h2 := hm.empty
        rw [hw] at h1 h2
        have hlj : (p.Paths.take j).length = j := by simp; omega
        simp only [TMsg.parts, List.length_cons, List.length_map, hlj, List.take_succ_cons, List.cons.injEq] at h1
        simp only [TMsg.parts, List.length_cons, List.length_map, hlj, List.drop_succ_cons, forall_const] at h2
        obtain ⟨-, -, h1c, h1s⟩ := h1
        have hcount : p'.Paths.length = p.Paths.length := by
          have := congrArg leVal h1c
          rwa [hv, leVal_le, Nat.mod_eq_of_lt (by omega)] at this
        have hrest : ∀ s ∈ p'.Paths.drop j, s = [] :=
          strs_zero (fun s hs => f2' s (List.mem_of_mem_drop hs)) (by rw [List.map_drop]; exact h2)
        have hlens : (p'.Paths.take j).map List.length = (p.Paths.take j).map List.length := by
          rw [← List.map_take] at h1s
          have := congrArg (List.map fun x : Bytes => x.length - 2) h1s
          simpa [Function.comp_def, str_length] using this
        have hsum : ∀ (l : List GoString) (j : Nat), (l.map List.length).sum = ((l.take j).map List.length).sum + ((l.drop j).map List.length).sum := by
          intro l j
          conv => lhs; rw [← List.take_append_drop j l, List.map_append, List.sum_append]
        have hd0 : ((p'.Paths.drop j).map List.length).sum = 0 := by
          generalize p'.Paths.drop j = l at hrest
          induction l with
          | nil => rfl
          | cons s l ih => simp [hrest s (by simp), ih (fun x hx => hrest x (by simp [hx]))]
        show (p'.Paths.map List.length).sum + p'.Paths.length ≤ 65000
        have := hsum p'.Paths j
        have := hsum p.Paths j
        rw [hlens] at *
        omega

theorem brief_version {p p' : TversionPkt} (hf : (TMsg.version p).Fits) (h : CutTo (.version p) (.version p')) : BriefReq (.version p') := by
  obtain ⟨-, n, hn, hm, -⟩ := h
  have f' : p'.TVersion.length < 2 ^ 16 := hm.fits
  have f : p.TVersion.length < 2 ^ 16 := hf
  have hfl : (TMsg.version p).fields = le 4 p.TMsize.toNat ++ str p.TVersion := by simp [TMsg.fields]
  have hfin : (∀ x ∈ ((TMsg.version p').parts.drop 1).flatten, x = 0) → BriefReq (.version p') := by
    intro h
    have := str_all_zero f' (by simpa [TMsg.parts] using h)
    simp [BriefReq, this]
  rw [hfl] at hm hn
  by_cases n4 : n < 4
  · have hw : ∃ r, (TMsg.version p').layout.wholes ((le 4 p.TMsize.toNat ++ str p.TVersion).take n) = ([], r, some (.num 4)) := by
      simp only [TMsg.layout, Layout.of, Layout.wholes]
      rw [num_short (by simp; omega)]
      exact ⟨_, rfl⟩
    obtain ⟨r, hw⟩ := hw
    have := hm.rest
    rw [hw] at this
    exact hfin this
  · rw [List.take_append, List.take_of_length_le (by simp; omega), le_length] at hm
    simp only [List.length_append, le_length] at hn
    have hw : ∃ r, (TMsg.version p').layout.wholes (le 4 p.TMsize.toNat ++ (str p.TVersion).take (n - 4)) = ([le 4 p.TMsize.toNat], r, some .str) := by
      simp only [TMsg.layout, Layout.of, Layout.wholes]
      rw [front_num]
      simp only []
      rw [front_short f (List.take_prefix _ _) (by simp; omega)]
      exact ⟨_, rfl⟩
    obtain ⟨r, hw⟩ := hw
    have := hm.empty
    rw [hw] at this
    exact hfin (this rfl)

theorem brief_cut (m m' : TMsg) (hm : BriefCut m) (hf : m.Fits) (h : CutTo m m') : BriefReq m' := by
  have ht := h.1
  cases m' with
  | version p' => cases m <;> first | exact brief_version hf h | simp [TMsg.type] at ht
  | walk p' => cases m <;> first | exact brief_walk hm hf h | simp [TMsg.type] at ht
  | _ => trivial

/-- **C92, partial** for this file server, all executions: see `C92_any_partial`. -/
theorem C92_stack_any_partial (hh : host.Short) (hu : user.length < 2 ^ 13) (root : GoString) (w : ω) (s : Wired (State ω H))
    (he : WExec (ufs host user) (fun _ => True) (Wired.start (newFS root w)) s) (hf : CallsFit BriefCut s.cl) :
    (served s).Nodup ∧ served s <+: s.cl.written.map Prod.fst ∧
    ∃ ms acted outs, (served s).map s.cl.msg = ms.map some ∧ Acted ms acted ∧ runCalls (ufs host user) acted (newFS root w) = some (s.srv.ns, outs) ∧
      ∃ k : Option Nat, ∀ c b, s.cl.phase c = .done b → ∃ (i : Nat) (m : TMsg) (r : Except GoString RMsg), (served s)[i]? = some c ∧
        ms[i]? = some m ∧ outs[i]? = some r ∧
        (some c ≠ k → ∀ spare, callT m spare b = asCall m r) ∧
        (some c = k → ∃ t n, 7 ≤ n ∧ n < (asPacket t r).length ∧ b = (asPacket t r).take n ∧
          ∀ spare x, callT m spare b = .ret x none → ∃ r0, r = .ok r0 ∧ r0.slack ((r0.packet t).length - n)) :=
  C92_any_partial BriefCut BriefReq _ (ufs_any hh hu) (fun m hm => by cases m <;> first | exact hm.1 | exact hm) brief_cut _ s he hf

/-- C92: a Twalk with names, cut off within the second one -/
example : BriefCut (.walk ⟨1, 2, [[97], [98, 99]]⟩) ∧ (TMsg.walk ⟨1, 2, [[97], [98, 99]]⟩).Fits ∧
    CutTo (.walk ⟨1, 2, [[97], [98, 99]]⟩) (.walk ⟨1, 2, [[97], []]⟩) := by
  refine ⟨by simp [BriefCut], by simp [TMsg.Fits], rfl, 16, by decide, ⟨by simp [TMsg.Fits], by decide, by decide, by decide, by decide, by decide⟩, ?_⟩
  intro p p' _ _ h
  exact absurd h (by decide)

end Ninep.Ufs
