import Verif.Client.Remote
import Verif.Props.Client
import Verif.Props.Server

set_option linter.unusedSimpArgs false
set_option linter.unusedVariables false

/-
Property C36: calls through a client and a server behave like local calls of the file server.
Property C64: the client finds the packets of the server in the byte stream.
-/

namespace Ninep.Client
open Spec
variable {σ : Type}

/-- The methods called one after the other: the final state and what each call gave, an error text or a
result; `none` if a method panics. -/
def runCalls (ns : NineServer σ) : List TMsg → σ → Option (σ × List (Except GoString RMsg))
  | [], x => some (x, [])
  | m :: ms, x =>
    match call ns m x with
    | .panic => none
    | .ok x' r => (runCalls ns ms x').map fun y => (y.1, .ok r :: y.2)
    | .err x' e => (runCalls ns ms x').map fun y => (y.1, .error e :: y.2)

/-- what the caller of `CallT*` should get -/
def asCall (m : TMsg) : Except GoString RMsg → CallRes RMsg
  | .ok r => .ret r none
  | .error e => .ret (zeroR m) (some (.remote e))

/-- what a file server returns for the requests in `P` can be put on the wire -/
def Modest (P : TMsg → Prop) (ns : NineServer σ) : Prop := ∀ m x, P m → m.Fits →
  (∀ x' r, call ns m x = .ok x' r → r.Fits ∧ ∀ t, (r.packet t).length < 2 ^ 32) ∧
  (∀ x' e, call ns m x = .err x' e → e.length < 2 ^ 16)

/-- the calls made so far are in `P` and can be put on the wire -/
def CallsFit (P : TMsg → Prop) (s : State) : Prop := ∀ c m, s.msg c = some m → P m ∧ m.Fits ∧ ∀ t, (m.packet t).length < 2 ^ 32

theorem packetR_framing (r : RMsg) (t : Tag) (h : (r.packet t).length < 2 ^ 32) :
    (r.packet t).length = pktLen (r.packet t) := by
  have hh := packet_header r.type (by cases r <;> simp [RMsg.type]) t r.fields h
  unfold pktLen
  show _ = max 7 (leVal (List.take 4 (Spec.packet r.type (le 2 t.toNat ++ r.fields))))
  rw [hh.1]
  simp only [RMsg.packet, Spec.packet, RMsg.body, List.length_append, le_length]
  omega

theorem tagField_packetR (r : RMsg) (t : Tag) : tagField (r.packet t) = t.toNat := by
  have : ((r.packet t).drop 5).take 2 = le 2 t.toNat := by
    simp [RMsg.packet, RMsg.body, Spec.packet, List.drop_append, List.take_append, ← List.append_assoc]
  rw [tagField, this, leVal_le, Nat.mod_eq_of_lt]
  have := t.toNat_lt
  omega

theorem error_length (e : GoString) (t : Tag) (h : e.length < 2 ^ 16) :
    ((RMsg.error ⟨e⟩).packet t).length < 2 ^ 32 := by
  simp [RMsg.packet, Spec.packet, RMsg.body, RMsg.fields, str]
  omega

/-- one step of the server on a request of the client -/
theorem serve_answer {ns : NineServer σ} {m : TMsg} {t : Tag} {srv srv' : Server σ} {spare : Bytes} {b : Buffer}
    (hm : m.Fits) (hl : (m.packet t).length < 2 ^ 32) (hv : srv.Versioned = true)
    (hd : dispatch ns srv ⟨[], (m.packet t).drop 5, spare⟩ ((m.packet t).getD 4 0) = .done srv' b) :
    srv'.Versioned = true ∧
    ((∃ r, call ns m srv.ns = .ok srv'.ns r ∧ b.bytes = r.packet t) ∨
     (∃ e, call ns m srv.ns = .err srv'.ns e ∧ b.bytes = (RMsg.error ⟨e⟩).packet t)) := by
  obtain ⟨-, h2, h3⟩ := packet_framing m t hl
  rw [h2, h3, dispatch_request ns m srv _ (.inl hv), (lawsT m).fwd hm] at hd
  unfold handle at hd
  cases hc : call ns m srv.ns with
  | panic => simp [hc] at hd
  | ok x r =>
    simp only [hc, DispRes.done.injEq] at hd
    obtain ⟨rfl, rfl⟩ := hd
    exact ⟨rfl, .inl ⟨r, rfl, encodeR_bytes _ _ _⟩⟩
  | err x e =>
    simp only [hc, DispRes.done.injEq] at hd
    obtain ⟨rfl, rfl⟩ := hd
    exact ⟨rfl, .inr ⟨e, rfl, encodeR_bytes _ _ _⟩⟩

/-- the packet a result is sent as -/
def asPacket (t : Tag) : Except GoString RMsg → Bytes
  | .ok r => r.packet t
  | .error e => (RMsg.error ⟨e⟩).packet t

/-- what a result of a method for `m` is like -/
def GoodRes (m : TMsg) : Except GoString RMsg → Prop
  | .ok r => r.type = m.type + 1 ∧ r.Fits
  | .error e => e.length < 2 ^ 16

/-- a request that has been answered -/
structure Entry where
  call : Nat
  tag : Tag
  msg : TMsg
  out : Except GoString RMsg

def Entry.replied (e : Entry) : Nat × Bytes × Bytes := (e.call, e.msg.packet e.tag, asPacket e.tag e.out)

structure SysInv (ns : NineServer σ) (x0 : σ) (s : Sys σ) : Prop where
  inv : Inv s.cl
  open_ : Open s.cl
  versioned : s.srv.Versioned = true
  fifo : s.cl.written = s.cl.replied.map (fun r => (r.1, r.2.1)) ++ s.cl.wire
  hist : ∃ h : List Entry, s.cl.replied = h.map Entry.replied ∧ (∀ e ∈ h, s.cl.msg e.call = some e.msg) ∧
    runCalls ns (h.map Entry.msg) x0 = some (s.srv.ns, h.map Entry.out) ∧ ∀ e ∈ h, GoodRes e.msg e.out

theorem runCalls_append (ns : NineServer σ) (a : List TMsg) (m : TMsg) (x x1 : σ) (outs : List (Except GoString RMsg))
    (h : runCalls ns a x = some (x1, outs)) :
    (∀ x2 r, call ns m x1 = .ok x2 r → runCalls ns (a ++ [m]) x = some (x2, outs ++ [.ok r])) ∧
    (∀ x2 e, call ns m x1 = .err x2 e → runCalls ns (a ++ [m]) x = some (x2, outs ++ [.error e])) := by
  induction a generalizing x outs with
  | nil =>
    simp only [runCalls, Option.some.injEq, Prod.mk.injEq] at h
    obtain ⟨rfl, rfl⟩ := h
    exact ⟨fun x2 r hc => by simp [runCalls, hc], fun x2 r hc => by simp [runCalls, hc]⟩
  | cons n a ih =>
    simp only [runCalls] at h
    cases hn : call ns n x with
    | panic => simp [hn] at h
    | ok x' r =>
      simp only [hn, Option.map_eq_some_iff, Prod.mk.injEq] at h
      obtain ⟨⟨y1, y2⟩, h1, rfl, rfl⟩ := h
      obtain ⟨g1, g2⟩ := ih x' y2 h1
      exact ⟨fun x2 r' hc => by simp [runCalls, hn, g1 x2 r' hc], fun x2 e hc => by simp [runCalls, hn, g2 x2 e hc]⟩
    | err x' r =>
      simp only [hn, Option.map_eq_some_iff, Prod.mk.injEq] at h
      obtain ⟨⟨y1, y2⟩, h1, rfl, rfl⟩ := h
      obtain ⟨g1, g2⟩ := ih x' y2 h1
      exact ⟨fun x2 r' hc => by simp [runCalls, hn, g1 x2 r' hc], fun x2 e hc => by simp [runCalls, hn, g2 x2 e hc]⟩

/-- the request of a call does not change -/
theorem msg_step {s s' : State} {l : Label} (hi : Inv s) (h : Step true l s s') {c : Nat} {m : TMsg}
    (hm : s.msg c = some m) : s'.msg c = some m := by
  cases h with
  | call _ d m' hp =>
    have : c ≠ d := by
      rintro rfl
      rw [hi.idle c hp] at hm
      cases hm
    exact (upd_other _ _ this).trans hm
  | _ => exact hm

/-- a step of the whole system is a step of the client with an abiding peer -/
theorem sys_step {P : TMsg → Prop} {ns : NineServer σ} (hns : Modest P ns) {x0 : σ} {s s' : Sys σ} {l : Label} (h : SysInv ns x0 s)
    (hf : CallsFit P s'.cl) (hs : SysStep ns l s s') : Step true l s.cl s'.cl ∧ Serving l ∧ SysInv ns x0 s' := by
  cases hs with
  | client _ cl cl' srv hl hst =>
    have hsv : Serving l := by cases l <;> simp [ClientSide, Serving] at hl ⊢
    refine ⟨hst, hsv, inv_step (serving_abiding l hsv) h.inv hst, open_step hsv h.inv h.open_ hst, h.versioned, ?_, ?_⟩
    · have hfifo := h.fifo
      cases hst <;> first | exact hl.elim | exact hfifo | skip
      dsimp only at hfifo ⊢
      rw [hfifo, List.append_assoc]
    · obtain ⟨hh, h1, h2, h3⟩ := h.hist
      refine ⟨hh, ?_, fun e he => msg_step h.inv hst (h2 e he), h3⟩
      rw [← h1]
      cases hst <;> first | exact hl.elim | rfl
  | serve cl srv srv' c q y spare b hw hd =>
    obtain ⟨m, t, hlegal, hm, hq⟩ := h.inv.wire (c, q) (by simp [hw])
    dsimp only at hm hq
    subst hq
    obtain ⟨hmP, hmf, hml⟩ := hf c m hm
    obtain ⟨hv', hcase⟩ := serve_answer hmf (hml t) h.versioned hd
    have hgood : ∃ out, GoodRes m out ∧ b.bytes = asPacket t out ∧
        (∀ outs a, runCalls ns a x0 = some (srv.ns, outs) → runCalls ns (a ++ [m]) x0 = some (srv'.ns, outs ++ [out])) ∧
        b.bytes.length = pktLen b.bytes ∧ tagField b.bytes = t.toNat := by
      rcases hcase with ⟨r, hc, hb⟩ | ⟨e, hc, hb⟩
      · have hmod := (hns m srv.ns hmP hmf).1 _ _ hc
        have hty : r.type = m.type + 1 := by
          exact call_type ns m srv.ns _ _ hc
        refine ⟨.ok r, ⟨hty, hmod.1⟩, hb, fun outs a ha => (runCalls_append ns a m x0 _ outs ha).1 _ _ hc, ?_, ?_⟩
        · rw [hb]; exact packetR_framing r t (hmod.2 t)
        · rw [hb]; exact tagField_packetR r t
      · have hmod := (hns m srv.ns hmP hmf).2 _ _ hc
        refine ⟨.error e, hmod, hb, fun outs a ha => (runCalls_append ns a m x0 _ outs ha).2 _ _ hc, ?_, ?_⟩
        · rw [hb]; exact packetR_framing _ t (error_length e t hmod)
        · rw [hb]; exact tagField_packetR _ t
    obtain ⟨out, hg, hbo, hrun, hlen, htag⟩ := hgood
    have hst : Step true .reply cl _ := Step.reply cl [] y c (m.packet t) b.bytes hw hlen
      (by rw [htag, tagField_packet]) h.open_.closed
    refine ⟨hst, trivial, inv_step (l := .reply) trivial h.inv hst, open_step (l := .reply) trivial h.inv h.open_ hst, hv', ?_, ?_⟩
    · have hfifo := h.fifo
      dsimp only at hfifo ⊢
      rw [hfifo, hw]
      simp
    · obtain ⟨hh, h1, h2, h3, h4⟩ := h.hist
      refine ⟨hh ++ [⟨c, t, m, out⟩], ?_, ?_, ?_, ?_⟩
      · dsimp only at h1 ⊢
        rw [h1, hbo]
        simp [Entry.replied]
      · intro e he
        rcases List.mem_append.1 he with he | he
        · exact h2 e he
        · rw [List.mem_singleton.1 he]; exact hm
      · simpa using hrun _ _ h3
      · intro e he
        rcases List.mem_append.1 he with he | he
        · exact h4 e he
        · rw [List.mem_singleton.1 he]; exact hg

/-- the calls that have not been made have no request -/
def Fresh (s : State) : Prop := ∀ c, s.phase c = .idle → s.msg c = none

theorem fresh_step {ns : NineServer σ} {s s' : Sys σ} {l : Label} (h : Fresh s.cl) (hs : SysStep ns l s s') :
    Fresh s'.cl ∧ ∀ c m, s.cl.msg c = some m → s'.cl.msg c = some m := by
  cases hs with
  | serve => exact ⟨h, fun _ _ hm => hm⟩
  | client _ cl cl' srv hl hst =>
    have h : Fresh cl := h
    cases hst with
    | call _ d m hp =>
      constructor
      · intro c hc
        by_cases hcd : c = d
        · subst hcd; simp [upd] at hc
        · dsimp only at hc ⊢
          rw [upd_other _ _ hcd] at hc ⊢
          exact h c hc
      · intro c m' hm
        have : c ≠ d := by
          rintro rfl
          have := h c hp
          dsimp only at hm
          rw [this] at hm
          cases hm
        exact (upd_other _ _ this).trans hm
    | enqueue _ a b d h1 h2 =>
      refine ⟨fun c hc => h c ?_, fun _ _ hm => hm⟩
      by_cases hcd : c = d
      · subst hcd; simp [upd] at hc
      · exact (upd_other _ _ hcd).symm.trans hc
    | deliver _ d t b h1 h2 =>
      refine ⟨fun c hc => h c ?_, fun _ _ hm => hm⟩
      by_cases hcd : c = d
      · subst hcd; simp [upd] at hc
      · exact (upd_other _ _ hcd).symm.trans hc
    | _ => exact ⟨h, fun _ _ hm => hm⟩

theorem fresh_exec {ns : NineServer σ} {L : Label → Prop} {s s' : Sys σ} (h : Fresh s.cl) (he : SysExec ns L s s') :
    Fresh s'.cl ∧ ∀ c m, s.cl.msg c = some m → s'.cl.msg c = some m := by
  induction he with
  | refl => exact ⟨h, fun _ _ hm => hm⟩
  | step a b l _ hl hal hst ih =>
    have := fresh_step ih.1 hst
    exact ⟨this.1, fun c m hm => this.2 c m (ih.2 c m hm)⟩

/-- everything that is known about an execution of the whole system -/
theorem sys_exec {P : TMsg → Prop} {ns : NineServer σ} (hns : Modest P ns) {x0 : σ} {s s' : Sys σ} (h : SysInv ns x0 s) {L : Label → Prop}
    (he : SysExec ns L s s') (hf : CallsFit P s'.cl) :
    SysInv ns x0 s' ∧ Exec true (fun l => L l ∧ Serving l) s.cl s'.cl := by
  induction he with
  | refl => exact ⟨h, Exec.refl _⟩
  | step a b l he hl hal hst ih =>
    have hfr := (fresh_exec (fun c hc => h.inv.idle c hc) he).1
    obtain ⟨h1, h2⟩ := ih fun c m hm => hf c m ((fresh_step hfr hst).2 c m hm)
    obtain ⟨g1, g2, g3⟩ := sys_step hns h1 hf hst
    exact ⟨g3, Exec.step _ _ _ l h2 ⟨hl, g2⟩ hal g1⟩

theorem sysInv_init (ns : NineServer σ) (x0 : σ) : SysInv ns x0 ⟨init, ⟨x0, true⟩⟩ :=
  ⟨inv_init, open_init, rfl, rfl, [], rfl, by simp, rfl, by simp⟩

/-- all steps -/
def everything : Label → Prop := fun _ => True

/-- the calls in the order in which the server has answered them -/
def order (s : Sys σ) : List Nat := s.cl.replied.map Prod.fst

theorem order_step {ns : NineServer σ} {s s' : Sys σ} {l : Label} (hs : SysStep ns l s s') : order s <+: order s' := by
  cases hs with
  | serve => simp [order]
  | client _ cl cl' srv hl hst => cases hst <;> first | exact hl.elim | exact List.prefix_refl _

theorem order_exec {ns : NineServer σ} {L : Label → Prop} {s s' : Sys σ} (he : SysExec ns L s s') : order s <+: order s' := by
  induction he with
  | refl => exact List.prefix_refl _
  | step a b l _ _ _ hst ih => exact ih.trans (order_step hst)

theorem sysExec_trans {ns : NineServer σ} {L L' : Label → Prop} {a b c : Sys σ} (h1 : SysExec ns L a b) (h2 : SysExec ns L' b c) :
    SysExec ns everything a c := by
  have e1 : SysExec ns everything a b := by
    clear h2
    induction h1 with
    | refl => exact SysExec.refl _
    | step a b l _ _ hal hst ih => exact SysExec.step _ _ _ l ih trivial hal hst
  induction h2 with
  | refl => exact e1
  | step a b l _ _ hal hst ih => exact SysExec.step _ _ _ l ih trivial hal hst

/-- **C36** Remote calls behave like local calls.  In every execution of any number of concurrent callers,
the client and the server there is one order of the answered calls such that calling the methods of the
file server one after the other in this order, with the arguments of the calls, gives the state the file
server is in and, for every call that has returned, exactly the result or error it returned.  The order
is the order in which the requests were written. -/
theorem C36_remote_is_local (P : TMsg → Prop) (ns : NineServer σ) (hns : Modest P ns) (x0 : σ) (s : Sys σ)
    (he : SysExec ns everything ⟨init, ⟨x0, true⟩⟩ s) (hf : CallsFit P s.cl) :
    (order s).Nodup ∧ order s <+: s.cl.written.map Prod.fst ∧
    ∃ ms outs, (order s).map s.cl.msg = ms.map some ∧ runCalls ns ms x0 = some (s.srv.ns, outs) ∧
      ∀ c b, s.cl.phase c = .done b → ∃ (i : Nat) (m : TMsg) (r : Except GoString RMsg), (order s)[i]? = some c ∧ ms[i]? = some m ∧ outs[i]? = some r ∧
        ∀ spare, callT m spare b = asCall m r := by
  obtain ⟨hi, hex⟩ := sys_exec hns (sysInv_init ns x0) he hf
  have hserv : Exec true Serving init s.cl := by
    have : ∀ a b, Exec true (fun l => everything l ∧ Serving l) a b → Exec true Serving a b := by
      intro a b h
      induction h with
      | refl => exact Exec.refl _
      | step a b l _ hl hal hst ih => exact Exec.step _ _ _ l ih hl.2 hal hst
    exact this _ _ hex
  refine ⟨(C28_right_reply s.cl hserv).2.2, ?_, ?_⟩
  · rw [hi.fifo, order]
    simp [Function.comp_def]
  · obtain ⟨h, h1, h2, h3, h4⟩ := hi.hist
    have hord : order s = h.map Entry.call := by
      rw [order, h1]; simp [Function.comp_def, Entry.replied]
    refine ⟨h.map Entry.msg, h.map Entry.out, ?_, h3, ?_⟩
    · rw [hord, List.map_map, List.map_map]
      exact List.map_congr_left fun e he => h2 e he
    · intro c b hc
      obtain ⟨q, hq⟩ := hi.inv.done c b hc
      rw [h1] at hq
      obtain ⟨e, he, heq⟩ := List.mem_map.1 hq
      obtain ⟨i, hi', hie⟩ := List.getElem_of_mem he
      have hie : h[i]? = some e := by rw [List.getElem?_eq_getElem hi', hie]
      simp only [Entry.replied, Prod.mk.injEq] at heq
      refine ⟨i, e.msg, e.out, by rw [hord]; simp [hie, heq.1], by simp [hie], by simp [hie], fun spare => ?_⟩
      have hg := h4 e he
      rw [← heq.2.2]
      cases ho : e.out with
      | ok r =>
        rw [ho] at hg
        exact (C35_call_results e.msg spare e.tag).1 r hg.1 hg.2
      | error x =>
        rw [ho] at hg
        exact (C35_call_results e.msg spare e.tag).2 x hg

/-- **C36**, real time: a call that returned before another one was made comes before it in the order. -/
theorem C36_real_time (P : TMsg → Prop) (ns : NineServer σ) (hns : Modest P ns) (x0 : σ) (s s' : Sys σ)
    (he : SysExec ns everything ⟨init, ⟨x0, true⟩⟩ s) (he' : SysExec ns everything s s') (hf : CallsFit P s'.cl)
    (c d : Nat) (b : Bytes) (hc : s.cl.phase c = .done b) (hd : s.cl.phase d = .idle) (hdo : d ∈ order s') :
    ∃ x y z, order s' = x ++ c :: y ++ d :: z := by
  have hfr := (fresh_exec (ns := ns) (s := ⟨init, ⟨x0, true⟩⟩) (fun c _ => rfl) he).1
  have hfs : CallsFit P s.cl := fun c m hm => hf c m ((fresh_exec hfr he').2 c m hm)
  obtain ⟨hi, -⟩ := sys_exec hns (sysInv_init ns x0) he hfs
  obtain ⟨q, hq⟩ := hi.inv.done c b hc
  have hcs : c ∈ order s := List.mem_map.2 ⟨_, hq, rfl⟩
  have hds : d ∉ order s := by
    intro h
    obtain ⟨r, hr, hrd⟩ := List.mem_map.1 h
    obtain ⟨m, t, -, hm, -⟩ := hi.inv.written _ (hi.inv.replied r hr).1
    rw [show (r.1, r.2.1).1 = d from hrd, hi.inv.idle d hd] at hm
    cases hm
  obtain ⟨w, hw⟩ := order_exec he'
  rw [← hw] at hdo ⊢
  rcases List.mem_append.1 hdo with h | h
  · exact absurd h hds
  · obtain ⟨x, y, hx⟩ := List.append_of_mem hcs
    obtain ⟨u, v, hu⟩ := List.append_of_mem h
    exact ⟨x, y ++ u, v, by rw [hx, hu]; simp⟩

/-- the steps that need no new calls -/
def sysSettling : Label → Prop := Internal

theorem sys_work {ns : NineServer σ} {s s' : Sys σ} {l : Label} (hl : sysSettling l) (h : SysStep ns l s s') :
    work s'.cl < work s.cl := by
  cases h with
  | client _ cl cl' srv _ hst => exact work_step hl hst
  | serve cl srv srv' c q y spare b hw hd => simp [work, hw]; omega

/-- **C36**, progress: if the methods of the file server return, every call returns: there is no infinite
execution without new calls, and when nothing can go on any more all calls have returned. -/
theorem C36_calls_return (P : TMsg → Prop) (ns : NineServer σ) (hns : Modest P ns) (hnp : ∀ m x, P m → call ns m x ≠ .panic) (x0 : σ) (s : Sys σ)
    (he : SysExec ns everything ⟨init, ⟨x0, true⟩⟩ s) (hf : CallsFit P s.cl) (ht : s.cl.taken.length < 65534) :
    (¬ ∃ f : Nat → Sys σ, f 0 = s ∧ ∀ n, ∃ l, sysSettling l ∧ SysStep ns l (f n) (f (n + 1))) ∧
    ((∀ l s', sysSettling l → ¬ SysStep ns l s s') → ∀ c, s.cl.phase c ≠ .idle → ∃ b, s.cl.phase c = .done b) := by
  refine ⟨?_, ?_⟩
  · rintro ⟨f, h0, hf⟩
    have : ∀ n, work (f n).cl + n ≤ work (f 0).cl := by
      intro n
      induction n with
      | zero => simp
      | succ n ih =>
        obtain ⟨l, hl, hst⟩ := hf n
        have := sys_work hl hst
        omega
    have := this (work (f 0).cl + 1)
    omega
  · intro hno c hc
    obtain ⟨hi, hex⟩ := sys_exec hns (sysInv_init ns x0) he hf
    have hstuck : Stuck s.cl := by
      intro l s' hl hst
      by_cases hcl : ClientSide l
      · exact hno l ⟨s', s.srv⟩ hl (SysStep.client l s.cl s' s.srv hcl hst)
      · have hlr : l = .reply := by
          revert hl hcl
          cases l <;> simp [Internal, ClientSide]
        subst hlr
        have hne : s.cl.wire ≠ [] := by cases hst with | reply _ x y c q p h1 => simp [h1]
        match hw : s.cl.wire, hne with
        | (d, q) :: y, _ =>
          obtain ⟨m, t, -, hm, hq⟩ := hi.inv.wire (d, q) (by simp [hw])
          dsimp only at hm hq
          subst hq
          obtain ⟨hmP, hmf, hml⟩ := hf d m hm
          obtain ⟨-, h2, h3⟩ := packet_framing m t (hml t)
          cases hd : dispatch ns s.srv ⟨[], (m.packet t).drop 5, []⟩ ((m.packet t).getD 4 0) with
          | done srv' b => exact hno .reply _ trivial (SysStep.serve s.cl s.srv srv' d _ y [] b hw hd)
          | panic =>
            rw [h2, h3, dispatch_request ns m s.srv _ (.inl hi.versioned), (lawsT m).fwd hmf] at hd
            unfold handle at hd
            cases hcall : call ns m s.srv.ns with
            | panic => exact hnp _ _ hmP hcall
            | ok x r => simp [hcall] at hd
            | err x r => simp [hcall] at hd
    have hr : s.cl.recv = .idle := by
      rcases stuck_recv hi.inv hstuck with h | h
      · exact h
      · exact absurd h hi.open_.recv
    have hq := stuck_all hi.inv hstuck hr hi.open_.reader ht
    rcases quiet_calls hi.inv hr hq c with h | h
    · exact absurd h hc
    · exact h

/-- a call by a lone caller is answered -/
theorem sys_settles (P : TMsg → Prop) (ns : NineServer σ) (hns : Modest P ns) (x0 : σ) (n : Nat) (s : Sys σ) (hn : work s.cl = n)
    (he : SysExec ns everything ⟨init, ⟨x0, true⟩⟩ s) (hf : CallsFit P s.cl) :
    ∃ s', SysExec ns sysSettling s s' ∧ s'.cl.msg = s.cl.msg ∧ s'.cl.taken = s.cl.taken ∧
      ∀ l s'', sysSettling l → ¬ SysStep ns l s' s'' := by
  induction n using Nat.strongRecOn generalizing s with
  | ind n ih =>
    by_cases h : ∃ l s', sysSettling l ∧ SysStep ns l s s'
    · obtain ⟨l, s1, hl, hst⟩ := h
      have hal : Alive s.cl := ((sys_exec hns (sysInv_init ns x0) he hf).1).open_.recv
      have hmsg : s1.cl.msg = s.cl.msg ∧ s1.cl.taken = s.cl.taken := by
        cases hst with
        | serve => exact ⟨rfl, rfl⟩
        | client _ cl cl' srv _ hst => cases hst <;> first | exact hl.elim | exact ⟨rfl, rfl⟩
      obtain ⟨s2, h1, h2, h3, h4⟩ := ih (work s1.cl) (by rw [← hn]; exact sys_work hl hst) s1 rfl
        (SysExec.step _ _ _ l he trivial hal hst) (by unfold CallsFit; rw [hmsg.1]; exact hf)
      refine ⟨s2, ?_, h2.trans hmsg.1, h3.trans hmsg.2, h4⟩
      have h0 : SysExec ns sysSettling s s1 := SysExec.step s s s1 l (SysExec.refl s) hl hal hst
      clear h4 h2 h3
      induction h1 with
      | refl => exact h0
      | step a b l' _ hl' ha hab ih' => exact SysExec.step s a b l' ih' hl' ha hab
    · exact ⟨s, SysExec.refl s, rfl, rfl, fun l s' hl hst => h ⟨l, s', hl, hst⟩⟩

theorem countNS_modest : Modest (fun _ => True) countNS := by
  intro m x _ hm
  constructor
  · intro x' r h
    cases m <;> simp only [call, countNS, mapRes, NRes.ok.injEq, reduceCtorEq] at h <;>
      obtain ⟨-, rfl⟩ := h <;>
      simp [RMsg.Fits, RMsg.packet, Spec.packet, RMsg.body, RMsg.fields, str, qid] <;>
      simp [TMsg.Fits] at hm <;> omega
  · intro x' e h
    cases m <;> simp only [call, countNS, mapRes, NRes.err.injEq, reduceCtorEq] at h <;>
      obtain ⟨-, rfl⟩ := h <;> simp

/-- C36: a call to `countNS` through client and server that has returned -/
example : ∃ s b, SysExec countNS everything ⟨init, ⟨0, true⟩⟩ s ∧ CallsFit (fun _ => True) s.cl ∧ s.cl.phase 0 = .done b := by
  have e1 : SysExec countNS everything ⟨init, ⟨0, true⟩⟩ ⟨_, ⟨0, true⟩⟩ :=
    SysExec.step _ _ _ .call (SysExec.refl _) trivial (by simp [Alive, init])
      (SysStep.client .call init _ ⟨0, true⟩ trivial (Step.call init 0 (.clunk { OFID := 7 }) rfl))
  have hf : CallsFit (fun _ => True) { init with
      phase := upd init.phase 0 .sending
      sending := 0 :: init.sending
      msg := upd init.msg 0 (some (.clunk { OFID := 7 }))
      buf := upd init.buf 0 (encodeT {} 0 (.clunk { OFID := 7 })).bytes } := by
    intro c m hm
    by_cases h : c = 0
    · subst h
      simp [upd] at hm
      subst hm
      simp [TMsg.Fits, TMsg.packet, Spec.packet, TMsg.body, TMsg.fields]
    · simp [upd, h, init] at hm
  obtain ⟨s, h1, h2, h3, h4⟩ := sys_settles _ countNS countNS_modest 0 _ _ rfl e1 hf
  have hfs : CallsFit (fun _ => True) s.cl := by unfold CallsFit; rw [h2]; exact hf
  have hes := sysExec_trans e1 h1
  have hnp : ∀ m x, call countNS m x ≠ .panic := by intro m x; cases m <;> simp [call, countNS, mapRes]
  have := (C36_calls_return _ countNS countNS_modest (fun m x _ => hnp m x) 0 s hes hfs (by rw [h3]; simp [init])).2 h4 0 (by
    intro hid
    have := (fresh_exec (ns := countNS) (s := ⟨init, ⟨0, true⟩⟩) (fun c _ => rfl) hes).1 0 hid
    rw [h2] at this
    simp [upd] at this)
  obtain ⟨b, hb⟩ := this
  exact ⟨s, b, hes, hfs, hb⟩

/-! ### C64 -/

theorem clientReads_none {fin : StreamEnd} {segs : List Bytes} (h : readHdr segs = none) : clientReads fin segs = [] := by
  rw [clientReads]
  split
  · rfl
  · rename_i hh; rw [h] at hh; cases hh

theorem clientReads_some {fin : StreamEnd} {segs rest : List Bytes} {l : Bytes} (h : readHdr segs = some (l, rest)) :
    clientReads fin segs = if (readBody (hdrSize l - 7) rest).2.2 = false ∧ fin = .error then []
      else (l ++ (readBody (hdrSize l - 7) rest).1) :: clientReads fin (readBody (hdrSize l - 7) rest).2.1 := by
  rw [clientReads]
  split
  · rename_i hh; rw [h] at hh; cases hh
  · rename_i l' r' hh
    rw [h] at hh
    cases hh
    rfl

/-- **C64** The client finds the packets of the server: if the stream consists of packets with correct size
fields and no cut goes through a header, the client reads exactly these packets, in order. -/
theorem C64_client_framing (fin : StreamEnd) (ps : List Bytes) (hp : ∀ p ∈ ps, p.length = pktLen p)
    (segs : List Bytes) (ha : Aligned segs) (hs : segs.flatten = ps.flatten) : clientReads fin segs = ps := by
  induction ps generalizing segs with
  | nil => exact clientReads_none (readHdr_nil (by rw [hs]; simp))
  | cons p ps ih =>
    have h1 := hp p (by simp)
    have h7 := pktLen_seven h1
    have hx : segs.flatten = p ++ ps.flatten := by rw [hs]; simp
    have hpl : pktLen segs.flatten = p.length := by rw [hx, pktLen_append (by omega), h1]
    obtain ⟨l, rest, hh⟩ := aligned_hdr ha (by rw [hx]; simp; omega)
    have har := aligned_rest ha hh (by rw [hpl, hx]; simp)
    obtain ⟨e1, e2, e3⟩ := readHdr_eq hh
    have hsz : hdrSize l = leVal (segs.flatten.take 4) := by rw [e1]; exact hdrSize_eq (by omega)
    have hpk : p.length = max 7 (hdrSize l) := by rw [← hpl, hsz]; rfl
    obtain ⟨g1, g2, g3⟩ := readBody_eq (hdrSize l - 7) rest
    have hlen : rest.flatten.length = segs.flatten.length - 7 := by rw [e2]; simp only [List.length_drop]
    have hlx : segs.flatten.length = p.length + ps.flatten.length := by rw [hx, List.length_append]
    have hbody : l ++ (readBody (hdrSize l - 7) rest).1 = p := by
      have : l ++ List.take (hdrSize l - 7) (segs.flatten.drop 7) = segs.flatten.take (7 + (hdrSize l - 7)) := by
        rw [List.take_add, ← e1]
      rw [g1, e2, this, show 7 + (hdrSize l - 7) = p.length by omega, hx, List.take_left]
    have hrest : (readBody (hdrSize l - 7) rest).2.1.flatten = ps.flatten := by
      rw [g2, e2, List.drop_drop, show 7 + (hdrSize l - 7) = p.length by omega, hx, List.drop_left]
    rw [clientReads_some hh, if_neg (by rw [g3.2 (by omega)]; simp), hbody,
      ih (fun p hp' => hp p (List.mem_cons_of_mem _ hp')) _ har hrest]

/-- Two replies that arrive in one piece. -/
example : clientReads .eof [(RMsg.clunk {}).packet 1 ++ (RMsg.clunk {}).packet 2] =
    [(RMsg.clunk {}).packet 1, (RMsg.clunk {}).packet 2] := by
  apply C64_client_framing
  · intro p hp
    simp only [List.mem_cons, List.not_mem_nil, or_false] at hp
    rcases hp with rfl | rfl <;> exact packetR_framing _ _ (by simp [RMsg.packet, Spec.packet, RMsg.body, RMsg.fields])
  · exact aligned_single (by simp [RMsg.packet, Spec.packet, le])
  · simp

/-- A header that arrives in two pieces ends the connection: the packet and all that follow are lost. -/
theorem C64_counterexample_cut (fin : StreamEnd) (x : Bytes) (hx : x.length < 7) (segs : List Bytes) :
    clientReads fin (x :: segs) = [] :=
  clientReads_none (by simp [readHdr, hx])

end Ninep.Client
