import Verif.Client.Bytes
import Verif.Props.Remote
import Verif.Props.Dead
import Verif.Props.Stack

set_option linter.unusedSimpArgs false
set_option linter.unusedVariables false

/-
Property C92: the client and the server over byte streams.
-/

namespace Ninep.Client
open Spec Dec
variable {σ : Type}

/-! ### one direction of the connection -/

/-- what the reader has and what is under way are the packets `ps`, or the beginning of them if the stream
has been cut -/
structure Framed (rd : Rd) (f : Bytes) (closed : Bool) (ps : List Bytes) : Prop where
  pre : rd.got ++ f <+: ps.flatten
  eq : closed = false → rd.got ++ f = ps.flatten
  shape : ∀ got n, rd = .body got n → 7 ≤ got.length ∧ got.length + n = pktLen got

theorem Framed.header {x r : Bytes} {c : Bool} {ps : List Bytes} (h : Framed .hdr (x ++ r) c ps) (hx : x.length = 7) :
    Framed (.body x (hdrSize x - 7)) r c ps := by
  refine ⟨h.pre, h.eq, fun got n he => ?_⟩
  simp only [Rd.body.injEq] at he
  obtain ⟨rfl, rfl⟩ := he
  have : hdrSize x = leVal (x.take 4) := by
    have := hdrSize_eq (x := x) (by omega)
    rwa [List.take_of_length_le (by omega)] at this
  unfold pktLen
  omega

theorem Framed.more {got x r : Bytes} {n : Nat} {c : Bool} {ps : List Bytes} (h : Framed (.body got n) (x ++ r) c ps)
    (hx : x.length ≤ n) : Framed (.body (got ++ x) (n - x.length)) r c ps := by
  obtain ⟨h1, h2⟩ := h.shape got n rfl
  refine ⟨by simpa [Rd.got] using h.pre, fun hc => by simpa [Rd.got] using h.eq hc, fun got' n' he => ?_⟩
  simp only [Rd.body.injEq] at he
  obtain ⟨rfl, rfl⟩ := he
  rw [pktLen_append (by omega)]
  simp
  omega

theorem Framed.cut {rd : Rd} {x y : Bytes} {c : Bool} {ps : List Bytes} (h : Framed rd (x ++ y) c ps) : Framed rd x true ps :=
  ⟨(by rw [← List.append_assoc]; exact List.prefix_append _ _ : rd.got ++ x <+: rd.got ++ (x ++ y)).trans h.pre, by simp, h.shape⟩

theorem Framed.push {rd : Rd} {f : Bytes} {c : Bool} {ps : List Bytes} (h : Framed rd f c ps) (p : Bytes) :
    Framed rd (if c then f else f ++ p) c (ps ++ [p]) := by
  cases c with
  | true => exact ⟨h.pre.trans (by simp), by simp, h.shape⟩
  | false =>
    have : rd.got ++ (f ++ p) = (ps ++ [p]).flatten := by rw [← List.append_assoc, h.eq rfl]; simp
    exact ⟨by simp only [Bool.false_eq_true, if_false]; rw [this]; exact List.prefix_refl _, fun _ => this, h.shape⟩

theorem Framed.pushPart {rd : Rd} {f : Bytes} {c : Bool} {ps : List Bytes} (h : Framed rd f c ps) {p x : Bytes} (hx : x <+: p) :
    Framed rd (if c then f else f ++ x) true (ps ++ [p]) := by
  cases c with
  | true => exact ⟨h.pre.trans (by simp), by simp, h.shape⟩
  | false =>
    obtain ⟨y, rfl⟩ := hx
    have := h.push (x ++ y)
    simp only [Bool.false_eq_true, if_false, ← List.append_assoc] at this ⊢
    exact this.cut

/-- the reader is in the first packet -/
theorem Framed.first {got f : Bytes} {n : Nat} {c : Bool} {ps : List Bytes} (h : Framed (.body got n) f c ps)
    (hp : ∀ p ∈ ps, p.length = pktLen p) : ∃ p qs, ps = p :: qs ∧ got.length + n = p.length := by
  obtain ⟨h1, h2⟩ := h.shape got n rfl
  cases ps with
  | nil =>
    have := h.pre.length_le
    simp [Rd.got] at this
    have h0 : got.length = 0 := by simp [this.1]
    omega
  | cons p qs =>
    refine ⟨p, qs, rfl, ?_⟩
    have hpl := hp p (by simp)
    have h7 := pktLen_seven hpl
    have e1 : got.take 4 = p.take 4 := by
      obtain ⟨y, hy⟩ := h.pre
      have := congrArg (List.take 4) hy
      simp only [Rd.got, List.flatten_cons] at this
      rwa [List.append_assoc, List.take_append_of_le_length (by omega), List.take_append_of_le_length (by omega)] at this
    rw [h2, hpl]
    unfold pktLen
    rw [e1]

/-- a packet that has been read is the first one -/
theorem Framed.next {got f : Bytes} {c : Bool} {ps : List Bytes} (h : Framed (.body got 0) f c ps)
    (hp : ∀ p ∈ ps, p.length = pktLen p) : ∃ qs, ps = got :: qs ∧ Framed .hdr f c qs := by
  obtain ⟨p, qs, rfl, hl⟩ := h.first hp
  have hgp : got = p := by
    obtain ⟨y, hy⟩ := h.pre
    simp only [Rd.got, List.flatten_cons, List.append_assoc] at hy
    exact (List.append_inj hy (by omega)).1
  subst hgp
  refine ⟨qs, rfl, ?_, ?_, by simp⟩
  · have := h.pre
    simp only [Rd.got, List.flatten_cons] at this
    simpa [Rd.got] using (List.prefix_append_right_inj _).1 this
  · intro hc
    have := h.eq hc
    simp only [Rd.got, List.flatten_cons] at this
    simpa [Rd.got] using List.append_cancel_left this

/-- as long as nothing is lost the reader can go on -/
theorem Framed.ready {rd : Rd} {f : Bytes} {ps : List Bytes} (h : Framed rd f false ps) (hp : ∀ p ∈ ps, p.length = pktLen p)
    (hne : ps ≠ []) (hs : rd ≠ .stopped) :
    (rd = .hdr ∧ 7 ≤ f.length) ∨ (∃ got, rd = .body got 0) ∨ ∃ got n, rd = .body got (n + 1) ∧ 0 < f.length := by
  cases rd with
  | stopped => exact absurd rfl hs
  | hdr =>
    refine .inl ⟨rfl, ?_⟩
    cases ps with
    | nil => exact absurd rfl hne
    | cons p qs =>
      have h7 := pktLen_seven (hp p (by simp))
      have := h.eq rfl
      simp only [Rd.got, List.nil_append, List.flatten_cons] at this
      rw [this, List.length_append]
      omega
  | body got n =>
    cases n with
    | zero => exact .inr (.inl ⟨got, rfl⟩)
    | succ n =>
      refine .inr (.inr ⟨got, n, rfl, ?_⟩)
      obtain ⟨p, qs, rfl, hl⟩ := h.first hp
      have := congrArg List.length (h.eq rfl)
      simp only [Rd.got, List.length_append, List.flatten_cons] at this
      omega

/-! ### the system with bytes and the system with packets -/

def fixReader : Reader → Reader
  | .stopped => .idle
  | r => r

def fixRecv : Recv → Recv
  | .panicked => .idle
  | r => r

theorem fixRecv_eq {r : Recv} (h : r ≠ .panicked) : fixRecv r = r := by cases r <;> first | rfl | exact absurd rfl h

theorem fixReader_eq {r : Reader} (h : r ≠ .stopped) : fixReader r = r := by cases r <;> first | rfl | exact absurd rfl h

/-- the system with packets; a reader that has stopped is one to which nothing comes any more -/
def Wired.packets (s : Wired σ) : Sys σ :=
  ⟨{ s.cl with reader := fixReader s.cl.reader, recv := fixRecv s.cl.recv }, s.srv⟩

structure WInv (ns : NineServer σ) (x0 : σ) (s : Wired σ) : Prop where
  sys : SysInv ns x0 s.packets
  up : s.srvRd ≠ .stopped → Framed s.srvRd s.up s.upClosed (s.cl.wire.map Prod.snd)
  down : s.cl.reader ≠ .stopped → Framed s.clRd s.down s.downClosed (s.cl.fromNet.map Reply.bytes)

/-- what a step of the system with bytes is in the system with packets -/
def Means (ns : NineServer σ) (l : WLabel) (s s' : Wired σ) : Prop :=
  s'.packets = s.packets ∨ ∃ l', (l = .step l' ∨ l = .cut) ∧ SysStep ns l' s.packets s'.packets

theorem wire_framed {P : TMsg → Prop} {ns : NineServer σ} {x0 : σ} {s : Wired σ} (h : WInv ns x0 s) (hf : CallsFit P s.cl) :
    ∀ p ∈ s.cl.wire.map Prod.snd, p.length = pktLen p := by
  intro p hp
  obtain ⟨x, hx, rfl⟩ := List.mem_map.1 hp
  obtain ⟨m, t, -, hm, hq⟩ := h.sys.inv.wire x hx
  rw [hq]
  exact (packet_framing m t ((hf x.1 m hm).2.2 t)).1

theorem net_framed {ns : NineServer σ} {x0 : σ} {s : Wired σ} (h : WInv ns x0 s) :
    ∀ p ∈ s.cl.fromNet.map Reply.bytes, p.length = pktLen p := by
  intro p hp
  obtain ⟨r, hr, rfl⟩ := List.mem_map.1 hp
  obtain ⟨c, q, -, hq⟩ := h.sys.inv.answered r (by simp only [replies, Wired.packets]; simp [hr])
  exact (h.sys.inv.replied _ hq).2.2

/-- a step of the client without the connection, in a state in which the receiver cannot panic -/
theorem fixed_client {ns : NineServer σ} {s : Wired σ} {l : Label} {cl' : State} (hopen : s.cl.closed = false)
    (hnp : ∀ y, Step true .client s.packets.cl y → y.wire = s.cl.wire → y.fromNet = s.cl.fromNet → y.msg = s.cl.msg → y.recv ≠ .panicked)
    (hr : s.Running) (hl : ClientSide l) (hs : Step true l s.cl cl')
    (hw : cl'.wire = s.cl.wire) (hn : cl'.fromNet = s.cl.fromNet) :
    ({ s with cl := cl' } : Wired σ).packets = s.packets ∨ SysStep ns l s.packets ({ s with cl := cl' } : Wired σ).packets := by
  have hrecv : fixRecv s.cl.recv = s.cl.recv := fixRecv_eq hr.1
  obtain ⟨cl, srv, up, uc, rd, down, dc, crd, ex⟩ := s
  simp only [Wired.packets] at hrecv hnp hopen hw hn hs ⊢
  cases hs with
  | reply | junk | close => exact hl.elim
  | call _ c m h1 => exact .inr (.client _ _ _ _ trivial (Step.call _ c m h1))
  | getTag _ t ts h1 => exact .inr (.client _ _ _ _ trivial (Step.getTag _ t ts h1))
  | enqueue _ a b c h1 h2 => exact .inr (.client _ _ _ _ trivial (Step.enqueue _ a b c h1 h2))
  | takeReq _ c cs h1 h2 => exact .inr (.client _ _ _ _ trivial (Step.takeReq _ c cs h1 h2))
  | takeTag _ c t ts h1 h2 => exact .inr (.client _ _ _ _ trivial (Step.takeTag _ c t ts h1 h2))
  | putTag _ c t h1 => exact .inr (.client _ _ _ _ trivial (Step.putTag _ c t h1))
  | store _ c t h1 => exact .inr (.client _ _ _ _ trivial (Step.store _ c t h1))
  | write _ c t h1 =>
    have := congrArg List.length hw
    simp at this
  | read _ r rs h1 h2 =>
    have := congrArg List.length hn
    simp [h2] at this
  | readEOF _ h1 h2 h3 => rw [h3] at hopen; cases hopen
  | handOver _ r h1 h2 =>
    refine .inr (.client _ _ _ _ trivial ?_)
    exact Step.handOver { cl with reader := fixReader cl.reader, recv := fixRecv cl.recv } r
      (by simp [h1, fixReader]) (by simp [h2, fixRecv])
  | handOverNil _ h1 h2 =>
    left
    simp [h2, fixRecv]
  | lookup _ r h1 =>
    have hst : Step true .client { cl with reader := fixReader cl.reader, recv := fixRecv cl.recv }
        { cl with reader := fixReader cl.reader, recv := lookup true cl.rpc r.bytes } :=
      Step.lookup { cl with reader := fixReader cl.reader, recv := fixRecv cl.recv } r (by simp [h1, fixRecv])
    have hss : SysStep ns .client _ ⟨_, srv⟩ := SysStep.client .client _ _ srv trivial hst
    right
    rw [fixRecv_eq (hnp _ hst rfl rfl rfl)]
    exact hss
  | deliver _ c t b h1 h2 =>
    refine .inr (.client _ _ _ _ trivial ?_)
    exact Step.deliver { cl with reader := fixReader cl.reader, recv := fixRecv cl.recv } c t b
      (by simp [h1, fixRecv]) h2
  | retag _ t h1 h2 =>
    refine .inr (.client _ _ _ _ trivial ?_)
    exact Step.retag { cl with reader := fixReader cl.reader, recv := fixRecv cl.recv } t
      (by simp [h1, fixRecv]) h2

theorem means_client {P : TMsg → Prop} {ns : NineServer σ} (hns : Modest P ns) {x0 : σ} {s : Wired σ} {l : Label} {cl' : State}
    (h : WInv ns x0 s) (hf : CallsFit P s.cl) (hr : s.Running) (hl : ClientSide l) (hs : Step true l s.cl cl')
    (hw : cl'.wire = s.cl.wire) (hn : cl'.fromNet = s.cl.fromNet) :
    ({ s with cl := cl' } : Wired σ).packets = s.packets ∨ SysStep ns l s.packets ({ s with cl := cl' } : Wired σ).packets := by
  refine fixed_client h.sys.open_.closed (fun y hy _ _ hm => ?_) hr hl hs hw hn
  have hf' : CallsFit P y := by unfold CallsFit; rw [hm]; exact hf
  exact (sys_step hns h.sys (s' := ⟨y, s.srv⟩) hf' (SysStep.client .client s.packets.cl y s.srv trivial hy)).2.2.open_.recv

theorem reader_stays {l : Label} {s s' : State} (hs : Step true l s s') (h : s.reader = .stopped) : s'.reader = .stopped := by
  cases hs with
  | read _ r rs h1 h2 => rw [h] at h1; cases h1
  | readEOF _ h1 h2 h3 => rfl
  | handOver _ r h1 h2 => rw [h] at h1; cases h1
  | _ => exact h

theorem packets_reader (s : Wired σ) (h : s.cl.reader = .idle) (cl : State) (hc : cl = { s.cl with reader := .stopped }) :
    ({ s.cl with reader := fixReader s.cl.reader, recv := fixRecv s.cl.recv } : State) =
      { cl with reader := fixReader cl.reader, recv := fixRecv cl.recv } := by
  subst hc
  simp [h, fixReader]

theorem answered_cons {cl : State} {c : Nat} {q b : Bytes} {y : List (Nat × Bytes)} (h : cl.wire = (c, q) :: y) :
    answered cl b = { cl with
      wire := y
      fromNet := cl.fromNet ++ [{ owner := some c, bytes := b }]
      replied := cl.replied ++ [(c, q, b)] } := by
  simp only [answered, h]

theorem answered_msg (cl : State) (b : Bytes) : (answered cl b).msg = cl.msg ∧ (answered cl b).phase = cl.phase ∧
    (answered cl b).reader = cl.reader := by
  unfold answered
  split <;> exact ⟨rfl, rfl, rfl⟩

/-- the server answers the request it has read -/
theorem means_serve {P : TMsg → Prop} {ns : NineServer σ} {x0 : σ} {s : Wired σ} (h : WInv ns x0 s) (hf : CallsFit P s.cl)
    {got spare : Bytes} {srv' : Server σ} {b : Buffer} (hrd : s.srvRd = .body got 0)
    (hd : dispatch ns s.srv ⟨[], got.drop 5, spare⟩ (got.getD 4 0) = .done srv' b) :
    ∃ c y, s.cl.wire = (c, got) :: y ∧ Framed .hdr s.up s.upClosed (y.map Prod.snd) ∧
      ∀ s' : Wired σ, s'.cl = answered s.cl b.bytes → s'.srv = srv' → SysStep ns .reply s.packets s'.packets := by
  have hu := h.up (by rw [hrd]; simp)
  rw [hrd] at hu
  obtain ⟨qs, h1, h2⟩ := hu.next (wire_framed h hf)
  match hw : s.cl.wire, h1 with
  | (c, q) :: y, h1 =>
    simp only [List.map_cons, List.cons.injEq] at h1
    obtain ⟨rfl, rfl⟩ := h1
    refine ⟨c, y, rfl, h2, ?_⟩
    intro s' hc hsv
    have := SysStep.serve (ns := ns) { s.cl with reader := fixReader s.cl.reader, recv := fixRecv s.cl.recv } s.srv srv' c q y spare b hw hd
    simp only [Wired.packets, hc, hsv, answered_cons hw]
    exact this

theorem wired_step {P : TMsg → Prop} {ns : NineServer σ} (hns : Modest P ns) {x0 : σ} {s s' : Wired σ} {l : WLabel}
    (h : WInv ns x0 s) (hf : CallsFit P s.cl) (hf' : CallsFit P s'.cl) (hl : l ≠ .trunc) (hl' : l ≠ .truncReq) (hs : WStep ns l s s') :
    WInv ns x0 s' ∧ Means ns l s s' := by
  have key : Means ns l s s' → (s'.srvRd ≠ .stopped → Framed s'.srvRd s'.up s'.upClosed (s'.cl.wire.map Prod.snd)) →
      (s'.cl.reader ≠ .stopped → Framed s'.clRd s'.down s'.downClosed (s'.cl.fromNet.map Reply.bytes)) →
      WInv ns x0 s' ∧ Means ns l s s' := by
    intro hm h1 h2
    refine ⟨⟨?_, h1, h2⟩, hm⟩
    rcases hm with hm | ⟨l', -, hm⟩
    · rw [hm]; exact h.sys
    · exact (sys_step hns h.sys hf' hm).2.2
  cases hs with
  | srvBodyEOF => exact absurd rfl hl'
  | clBodyEOF => exact absurd rfl hl
  | client _ l' cl' hr hcl hst hw hn =>
    apply key
    · rcases means_client hns h hf hr hcl hst hw hn with hm | hm
      · exact .inl hm
      · exact .inr ⟨l', .inl rfl, hm⟩
    · simp only [hw]; exact h.up
    · simp only [hn]
      intro hne
      exact h.down fun he => hne (reader_stays hst he)
  | write _ c t hr hst =>
    apply key
    · refine .inr ⟨.client, .inl rfl, .client _ _ _ _ trivial ?_⟩
      exact Step.write { s.cl with reader := fixReader s.cl.reader, recv := fixRecv s.cl.recv } c t hst
    · intro hne
      have := (h.up hne).push (s.cl.buf c)
      simpa [sentOff] using this
    · exact h.down
  | writeFails _ c t x hr hst hx =>
    apply key
    · refine .inr ⟨.client, .inr rfl, .client _ _ _ _ trivial ?_⟩
      exact Step.write { s.cl with reader := fixReader s.cl.reader, recv := fixRecv s.cl.recv } c t hst
    · intro hne
      have := (h.up hne).pushPart hx
      simpa [sentOff] using this
    · exact h.down
  | srvHdr _ x r hrd hu hx =>
    refine key (.inl rfl) (fun _ => ?_) h.down
    have := h.up (by rw [hrd]; simp)
    rw [hrd, hu] at this
    exact this.header hx
  | srvShort _ x r hrd hu h0 hx =>
    refine key (.inl rfl) (fun hne => absurd rfl hne) fun hne => ?_
    have := h.down hne
    rw [← List.append_nil s.down] at this
    exact this.cut
  | srvEnd _ hrd hu hc =>
    refine key (.inl rfl) (fun hne => absurd rfl hne) fun hne => ?_
    have := h.down hne
    rw [← List.append_nil s.down] at this
    exact this.cut
  | srvBody _ got x r n hrd hu h0 hx =>
    refine key (.inl rfl) (fun _ => ?_) h.down
    have := h.up (by rw [hrd]; simp)
    rw [hrd, hu] at this
    exact this.more hx
  | srvBodyErr _ got n hrd hu hc =>
    refine key (.inl rfl) (fun hne => absurd rfl hne) fun hne => ?_
    have := h.down hne
    rw [← List.append_nil s.down] at this
    exact this.cut
  | serve _ got spare srv' b hrd hd =>
    obtain ⟨c, y, h1, h2, h3⟩ := means_serve h hf hrd hd
    refine key (.inr ⟨.reply, .inl rfl, h3 _ rfl rfl⟩) (fun _ => ?_) fun hne => ?_
    · simpa [answered_cons h1] using h2
    · have := (h.down (by rw [← (answered_msg s.cl b.bytes).2.2]; exact hne)).push b.bytes
      simpa [answered_cons h1] using this
  | serveFails _ got spare srv' b x hrd hd hx =>
    obtain ⟨c, y, h1, h2, h3⟩ := means_serve h hf hrd hd
    refine key (.inr ⟨.reply, .inr rfl, h3 _ rfl rfl⟩) (fun hne => absurd rfl hne) fun hne => ?_
    have := (h.down (by rw [← (answered_msg s.cl b.bytes).2.2]; exact hne)).pushPart hx
    simpa [answered_cons h1] using this
  | cutUp _ x y hu =>
    refine key (.inl rfl) (fun hne => ?_) h.down
    have := h.up hne
    rw [hu] at this
    exact this.cut
  | cutDown _ x y hu =>
    refine key (.inl rfl) h.up fun hne => ?_
    have := h.down hne
    rw [hu] at this
    exact this.cut
  | clHdr _ x r hr hi hrd hu hx =>
    refine key (.inl rfl) h.up fun hne => ?_
    have := h.down hne
    rw [hrd, hu] at this
    exact this.header hx
  | clShort _ x r hr hi hrd hu h0 hx =>
    refine key (.inl ?_) h.up fun hne => absurd rfl hne
    simp [Wired.packets, hi, fixReader]
  | clEnd _ hr hi hrd hu hc =>
    refine key (.inl ?_) h.up fun hne => absurd rfl hne
    simp [Wired.packets, hi, fixReader]
  | clBody _ got x r n hr hi hrd hu h0 hx =>
    refine key (.inl rfl) h.up fun hne => ?_
    have := h.down hne
    rw [hrd, hu] at this
    exact this.more hx
  | clBodyErr _ got n hr hi hrd hu hc =>
    refine key (.inl ?_) h.up fun hne => absurd rfl hne
    simp [Wired.packets, hi, fixReader]
  | clDone _ got hr hi hrd =>
    have hd := h.down (by rw [hi]; simp)
    rw [hrd] at hd
    obtain ⟨qs, h1, h2⟩ := hd.next (net_framed h)
    match hw : s.cl.fromNet, h1 with
    | ⟨o, q⟩ :: y, h1 =>
      simp only [List.map_cons, List.cons.injEq] at h1
      obtain ⟨rfl, rfl⟩ := h1
      refine key (.inr ⟨.client, .inl rfl, .client _ _ _ _ trivial ?_⟩) h.up fun hne => ?_
      · have := Step.read (trace := true) { s.cl with reader := fixReader s.cl.reader, recv := fixRecv s.cl.recv } ⟨o, q⟩ y
          (by simp [hi, fixReader]) hw
        simpa [Wired.packets, received, hw, fixReader] using this
      · simpa [received, hw] using h2

theorem wired_fresh {ns : NineServer σ} {s s' : Wired σ} {l : WLabel} (h : Fresh s.cl) (hs : WStep ns l s s') :
    Fresh s'.cl ∧ ∀ c m, s.cl.msg c = some m → s'.cl.msg c = some m := by
  cases hs with
  | client _ l' cl' hr hcl hst hw hn =>
    exact fresh_step (ns := ns) (s := ⟨s.cl, s.srv⟩) (s' := ⟨cl', s.srv⟩) h (.client _ _ _ _ hcl hst)
  | serve _ got spare srv' b hrd hd =>
    obtain ⟨h1, h2, -⟩ := answered_msg s.cl b.bytes
    simp only [Fresh, h1, h2]
    exact ⟨h, fun _ _ hm => hm⟩
  | serveFails _ got spare srv' b x hrd hd hx =>
    obtain ⟨h1, h2, -⟩ := answered_msg s.cl b.bytes
    simp only [Fresh, h1, h2]
    exact ⟨h, fun _ _ hm => hm⟩
  | _ => exact ⟨h, fun _ _ hm => hm⟩

theorem wired_fresh_exec {ns : NineServer σ} {L : WLabel → Prop} {s s' : Wired σ} (h : Fresh s.cl) (he : WExec ns L s s') :
    Fresh s'.cl ∧ ∀ c m, s.cl.msg c = some m → s'.cl.msg c = some m := by
  induction he with
  | refl => exact ⟨h, fun _ _ hm => hm⟩
  | step a b l _ hl hst ih =>
    have := wired_fresh ih.1 hst
    exact ⟨this.1, fun c m hm => this.2 c m (ih.2 c m hm)⟩

theorem packets_id (cl : State) (h1 : cl.reader ≠ .stopped) (h2 : cl.recv ≠ .panicked) :
    ({ cl with reader := fixReader cl.reader, recv := fixRecv cl.recv } : State) = cl := by
  rw [fixReader_eq h1, fixRecv_eq h2]

theorem packets_start (x0 : σ) : (Wired.start x0).packets = ⟨init, ⟨x0, true⟩⟩ := by
  unfold Wired.packets Wired.start
  dsimp only
  rw [packets_id init nofun nofun]

theorem wired_init (ns : NineServer σ) (x0 : σ) : WInv ns x0 (Wired.start x0) := by
  have hp := packets_start x0
  have e1 : (Wired.start x0).cl.wire = [] := rfl
  have e2 : (Wired.start x0).cl.fromNet = [] := rfl
  have e3 : Framed .hdr [] false [] := ⟨by simp [Rd.got], fun _ => rfl, by simp⟩
  exact ⟨by rw [hp]; exact sysInv_init ns x0, fun _ => by rw [e1]; exact e3, fun _ => by rw [e2]; exact e3⟩

/-- Everything that happens with bytes also happens with packets. -/
theorem wired_exec {P : TMsg → Prop} {ns : NineServer σ} (hns : Modest P ns) {x0 : σ} {L : WLabel → Prop} (hL : ¬ L .trunc ∧ ¬ L .truncReq) {s s' : Wired σ}
    (h : WInv ns x0 s) (he : WExec ns L s s') (hf : CallsFit P s'.cl) :
    WInv ns x0 s' ∧ SysExec ns everything s.packets s'.packets := by
  induction he with
  | refl => exact ⟨h, SysExec.refl _⟩
  | step a b l he hl hst ih =>
    have hfr := (wired_fresh_exec (fun c hc => h.sys.inv.idle c hc) he).1
    have hfa : CallsFit P a.cl := fun c m hm => hf c m ((wired_fresh hfr hst).2 c m hm)
    obtain ⟨h1, h2⟩ := ih hfa
    obtain ⟨g1, g2⟩ := wired_step hns h1 hfa hf (by rintro rfl; exact hL.1 hl) (by rintro rfl; exact hL.2 hl) hst
    refine ⟨g1, ?_⟩
    rcases g2 with g2 | ⟨l', -, g2⟩
    · rw [g2]; exact h2
    · exact SysExec.step _ _ _ l' h2 trivial h1.sys.open_.recv g2

/-! ### C92 -/

/-- everything but an end of file inside of a packet -/
def NoTrunc : WLabel → Prop := fun l => l ≠ .trunc ∧ l ≠ .truncReq

/-- everything but an end of file inside of a request -/
def NoTruncReq : WLabel → Prop := fun l => l ≠ .truncReq

/-- the calls in the order in which the server has dealt with them -/
def served (s : Wired σ) : List Nat := s.cl.replied.map Prod.fst

/-- **C92, partial** The packets are put together from bytes that arrive in any pieces, and the connection may
break at any time.  Still the server deals with every request at most once and in the order in which the
requests were written; calling the methods of the file server one after the other in this order gives the
state the file server is in; and every call that has returned has returned exactly what the method called
for it gave.  Missing is the end of file inside of a packet (`NoTrunc`), for which this is false. -/
theorem C92_bytes_partial (P : TMsg → Prop) (ns : NineServer σ) (hns : Modest P ns) (x0 : σ) (s : Wired σ)
    (he : WExec ns NoTrunc (Wired.start x0) s) (hf : CallsFit P s.cl) :
    (served s).Nodup ∧ served s <+: s.cl.written.map Prod.fst ∧
    ∃ ms outs, (served s).map s.cl.msg = ms.map some ∧ runCalls ns ms x0 = some (s.srv.ns, outs) ∧
      ∀ c b, s.cl.phase c = .done b → ∃ (i : Nat) (m : TMsg) (r : Except GoString RMsg), (served s)[i]? = some c ∧
        ms[i]? = some m ∧ outs[i]? = some r ∧ ∀ spare, callT m spare b = asCall m r := by
  obtain ⟨-, h⟩ := wired_exec hns (by simp [NoTrunc]) (wired_init ns x0) he hf
  rw [packets_start] at h
  exact C36_remote_is_local P ns hns x0 s.packets h hf

/-- **C92, partial**, real time: a call that returned before another one was made was dealt with before it. -/
theorem C92_real_time_partial (P : TMsg → Prop) (ns : NineServer σ) (hns : Modest P ns) (x0 : σ) (s s' : Wired σ)
    (he : WExec ns NoTrunc (Wired.start x0) s) (he' : WExec ns NoTrunc s s') (hf : CallsFit P s'.cl)
    (c d : Nat) (b : Bytes) (hc : s.cl.phase c = .done b) (hd : s.cl.phase d = .idle) (hdo : d ∈ served s') :
    ∃ x y z, served s' = x ++ c :: y ++ d :: z := by
  have hfr := (wired_fresh_exec (ns := ns) (s := Wired.start x0) (fun c _ => rfl) he).1
  have hfs : CallsFit P s.cl := fun c m hm => hf c m ((wired_fresh_exec hfr he').2 c m hm)
  obtain ⟨hi, h1⟩ := wired_exec hns (by simp [NoTrunc]) (wired_init ns x0) he hfs
  obtain ⟨-, h2⟩ := wired_exec hns (by simp [NoTrunc]) hi he' hf
  rw [packets_start] at h1
  exact C36_real_time P ns hns x0 s.packets s'.packets h1 h2 hf c d b hc hd hdo

/-! ### progress -/

/-- nothing goes wrong on the network: no short header, no break -/
def Smooth : WLabel → Prop
  | .step _ => True
  | .io => True
  | _ => False

/-- the steps that need no new calls -/
def wSettling : WLabel → Prop
  | .step l => Internal l
  | .io => True
  | _ => False

structure WOpen (s : Wired σ) : Prop where
  upClosed : s.upClosed = false
  downClosed : s.downClosed = false
  srvRd : s.srvRd ≠ .stopped
  clRd : s.clRd ≠ .stopped
  reader : s.cl.reader ≠ .stopped
  closed : s.cl.closed = false
  exited : s.exited = false

theorem wopen_step {ns : NineServer σ} {s s' : Wired σ} {l : WLabel} (h : WOpen s) (hl : Smooth l) (hs : WStep ns l s s') : WOpen s' := by
  obtain ⟨h1, h2, h3, h4, h5, h6, h7⟩ := h
  cases hs with
  | writeFails | srvShort | srvEnd | srvBodyErr | srvBodyEOF | serveFails | cutUp | cutDown | clShort | clEnd | clBodyErr | clBodyEOF =>
    exact hl.elim
  | client _ l' cl' hr hcl hst hw hn =>
    refine ⟨h1, h2, h3, h4, ?_, ?_, h7⟩
    · cases hst with
      | readEOF _ a b c => exact absurd (h6.symm.trans c) (by simp)
      | read | handOver => simp
      | _ => exact h5
    · cases hst with
      | close => exact hcl.elim
      | _ => exact h6
  | write => exact ⟨h1, h2, h3, h4, h5, h6, h7⟩
  | srvHdr | srvBody => exact ⟨h1, h2, by simp, h4, h5, h6, h7⟩
  | serve _ got spare srv' b hrd hd =>
    refine ⟨h1, h2, by simp, h4, ?_, ?_, h7⟩
    · show (answered s.cl b.bytes).reader ≠ _
      rw [(answered_msg s.cl b.bytes).2.2]; exact h5
    · show (answered s.cl b.bytes).closed = _
      unfold answered
      split <;> exact h6
  | clHdr | clBody => exact ⟨h1, h2, h3, by simp, h5, h6, h7⟩
  | clDone => exact ⟨h1, h2, h3, by simp, by simp [received], h6, h7⟩

theorem wopen_start (x0 : σ) : WOpen (Wired.start x0) :=
  ⟨rfl, rfl, nofun, nofun, nofun, rfl, rfl⟩

theorem wopen_exec {ns : NineServer σ} {s s' : Wired σ} (h : WOpen s) (he : WExec ns Smooth s s') : WOpen s' := by
  induction he with
  | refl => exact h
  | step a b l _ hl hst ih => exact wopen_step ih hl hst

theorem wexec_weaken {ns : NineServer σ} {L L' : WLabel → Prop} (hL : ∀ l, L l → L' l) {s s' : Wired σ} (he : WExec ns L s s') :
    WExec ns L' s s' := by
  induction he with
  | refl => exact WExec.refl _
  | step a b l _ hl hst ih => exact WExec.step _ _ _ l ih (hL l hl) hst

theorem smooth_noTrunc (l : WLabel) (h : Smooth l) : NoTrunc l := ⟨by rintro rfl; exact h, by rintro rfl; exact h⟩

theorem settling_smooth (l : WLabel) (h : wSettling l) : Smooth l := by
  cases l <;> first | trivial | exact h

/-- the bytes under way -/
def Wired.inFlight (s : Wired σ) : Nat := s.up.length + s.down.length

theorem calm_client {P : TMsg → Prop} {ns : NineServer σ} (hns : Modest P ns) {x0 : σ} {s : Wired σ} {l : Label} {cl' : State}
    (h : WInv ns x0 s) (ho : WOpen s) (hr : s.Running) (hf' : CallsFit P cl') (hcl : ClientSide l) (hst : Step true l s.cl cl') :
    cl'.recv ≠ .panicked := by
  have hi : SysInv ns x0 ⟨s.cl, s.srv⟩ := by
    have := h.sys
    rwa [show s.packets = ⟨s.cl, s.srv⟩ from by unfold Wired.packets; rw [packets_id _ ho.reader hr.1]] at this
  exact (sys_step hns hi (s' := ⟨cl', s.srv⟩) hf' (.client _ _ _ _ hcl hst)).2.2.open_.recv

/-- every step that needs no new calls gets on with the work or at least moves bytes -/
theorem wired_work {P : TMsg → Prop} {ns : NineServer σ} (hns : Modest P ns) {x0 : σ} {s s' : Wired σ} {l : WLabel}
    (h : WInv ns x0 s) (ho : WOpen s) (hf : CallsFit P s.cl) (hf' : CallsFit P s'.cl) (hl : wSettling l) (hs : WStep ns l s s') :
    work s'.packets.cl < work s.packets.cl ∨ work s'.packets.cl = work s.packets.cl ∧ s'.inFlight < s.inFlight := by
  have hm := (wired_step hns h hf hf' (by rintro rfl; exact hl) (by rintro rfl; exact hl) hs).2
  have hsys : ∀ l', l = .step l' → SysStep ns l' s.packets s'.packets → work s'.packets.cl < work s.packets.cl := by
    rintro l' rfl hst
    exact sys_work hl hst
  have hio : l = .io → s'.packets = s.packets ∧ s'.inFlight < s.inFlight := by
    rintro rfl
    cases hs with
    | srvHdr _ x r h1 h2 h3 => exact ⟨rfl, by simp [Wired.inFlight, h2]; omega⟩
    | srvBody _ got x r n h1 h2 h3 h4 => exact ⟨rfl, by simp [Wired.inFlight, h2]; omega⟩
    | clHdr _ x r h0 hi h1 h2 h3 => exact ⟨rfl, by simp [Wired.inFlight, h2]; omega⟩
    | clBody _ got x r n h0 hi h1 h2 h3 h4 => exact ⟨rfl, by simp [Wired.inFlight, h2]; omega⟩
  cases l with
  | io => exact .inr ⟨by rw [(hio rfl).1], (hio rfl).2⟩
  | step l' =>
    left
    rcases hm with hm | ⟨l'', h1, h2⟩
    · exfalso
      cases hs with
      | client _ _ cl' hr hcl hst hw hn =>
        have hrd := ho.reader
        have hne : s.packets.cl = s.cl := packets_id _ hrd hr.1
        have : work cl' < work s.cl := work_step hl hst
        have hc := congrArg (fun x => work x.cl) hm
        have ho' := wopen_step (ns := ns) ho (l := .step l') trivial (.client s l' cl' hr hcl hst hw hn)
        have hr' : cl'.recv ≠ .panicked := calm_client hns h ho hr hf' hcl hst
        have hne' : ({ s with cl := cl' } : Wired σ).packets.cl = cl' := packets_id _ ho'.reader hr'
        simp only [hne, hne'] at hc
        omega
      | write _ c t hr hst =>
        have hc := congrArg (fun x => x.cl.wire.length) hm
        simp [Wired.packets, sentOff] at hc
      | serve _ got spare srv' b hrd hd =>
        obtain ⟨c, y, h1, -, -⟩ := means_serve h hf hrd hd
        have hc := congrArg (fun x => x.cl.wire.length) hm
        simp [Wired.packets, answered_cons h1, h1] at hc
      | clDone _ got hr hi hrd =>
        have hc := congrArg (fun x => x.cl.reader) hm
        simp [Wired.packets, received, hi, fixReader] at hc
    · rcases h1 with h1 | h1
      · exact hsys l'' h1 h2
      · cases h1
  | short | cut | trunc | truncReq => exact hl.elim

theorem wired_msg {ns : NineServer σ} {s s' : Wired σ} {l : WLabel} (hl : wSettling l) (hs : WStep ns l s s') :
    s'.cl.msg = s.cl.msg := by
  cases hs with
  | client _ l' cl' hr hcl hst hw hn => cases hst <;> first | exact hl.elim | rfl
  | serve _ got spare srv' b hrd hd => exact (answered_msg s.cl b.bytes).1
  | serveFails => exact hl.elim
  | _ => rfl

theorem calm_exec {P : TMsg → Prop} {ns : NineServer σ} (hns : Modest P ns) {x0 : σ} {s s' : Wired σ} (h : WInv ns x0 s) (ho : WOpen s)
    (hr : s.cl.recv ≠ .panicked) (he : WExec ns Smooth s s') (hf : CallsFit P s'.cl) : s'.cl.recv ≠ .panicked := by
  induction he with
  | refl => exact hr
  | step a b l he hl hst ih =>
    have hfr := (wired_fresh_exec (fun c hc => h.sys.inv.idle c hc) he).1
    have hfa : CallsFit P a.cl := fun c m hm => hf c m ((wired_fresh hfr hst).2 c m hm)
    have ih := ih hfa
    have ha := (wired_exec hns (by simp [NoTrunc]) h (wexec_weaken smooth_noTrunc he) hfa).1
    have hoa := wopen_exec ho he
    cases hst with
    | client _ l' cl' hr hcl hst hw hn => exact calm_client hns ha hoa hr hf hcl hst
    | serve =>
      dsimp only [answered]
      split <;> exact ih
    | serveFails => exact hl.elim
    | _ => exact ih

/-- **C92**, progress: if every header arrives in one piece and the connection does not break, and the methods
of the file server return, then every call returns: there is no infinite execution without new calls, and
when nothing can go on any more all calls have returned.  The bodies may arrive in any pieces. -/
theorem C92_returns_partial (P : TMsg → Prop) (ns : NineServer σ) (hns : Modest P ns) (hnp : ∀ m x, P m → call ns m x ≠ .panic) (x0 : σ)
    (s : Wired σ) (he : WExec ns Smooth (Wired.start x0) s) (hf : CallsFit P s.cl) (ht : s.cl.taken.length < 65534) :
    (¬ ∃ f : Nat → Wired σ, f 0 = s ∧ ∀ n, ∃ l, wSettling l ∧ WStep ns l (f n) (f (n + 1))) ∧
    ((∀ l s', wSettling l → ¬ WStep ns l s s') → ∀ c, s.cl.phase c ≠ .idle → ∃ b, s.cl.phase c = .done b) := by
  obtain ⟨hi, hex⟩ := wired_exec hns (by simp [NoTrunc]) (wired_init ns x0) (wexec_weaken smooth_noTrunc he) hf
  rw [packets_start] at hex
  have ho := wopen_exec (wopen_start x0) he
  constructor
  · rintro ⟨f, rfl, hstep⟩
    have hall : ∀ n, WInv ns x0 (f n) ∧ WOpen (f n) ∧ CallsFit P (f n).cl := by
      intro n
      induction n with
      | zero => exact ⟨hi, ho, hf⟩
      | succ n ih =>
        obtain ⟨l, hl, hst⟩ := hstep n
        have hf' : CallsFit P (f (n + 1)).cl := by unfold CallsFit; rw [wired_msg hl hst]; exact ih.2.2
        exact ⟨(wired_step hns ih.1 ih.2.2 hf' (smooth_noTrunc l (settling_smooth l hl)).1
            (smooth_noTrunc l (settling_smooth l hl)).2 hst).1,
          wopen_step ih.2.1 (settling_smooth l hl) hst, hf'⟩
    have hlex : ∀ n, Prod.Lex (· < ·) (· < ·) (work (f (n + 1)).packets.cl, (f (n + 1)).inFlight) (work (f n).packets.cl, (f n).inFlight) := by
      intro n
      obtain ⟨l, hl, hst⟩ := hstep n
      obtain ⟨a, b, c⟩ := hall n
      rcases wired_work hns a b c (hall (n + 1)).2.2 hl hst with h | ⟨h1, h2⟩
      · exact .left _ _ h
      · rw [h1]; exact .right _ h2
    have hwf : WellFounded (Prod.Lex (α := Nat) (β := Nat) (· < ·) (· < ·)) := (Prod.lex Nat.lt_wfRel Nat.lt_wfRel).wf
    have : ∀ p : Nat × Nat, ∀ n, p = (work (f n).packets.cl, (f n).inFlight) → False := by
      intro p
      induction p using hwf.induction with
      | h p ih =>
        rintro n rfl
        exact ih _ (hlex n) (n + 1) rfl
    exact this _ 0 rfl
  · intro hno
    have hrecv := calm_exec hns (wired_init ns x0) (wopen_start x0) nofun he hf
    have hrun : s.Running := ⟨hrecv, ho.exited⟩
    have hpk : s.packets = ⟨s.cl, s.srv⟩ := by unfold Wired.packets; rw [packets_id _ ho.reader hrecv]
    rw [hpk] at hex
    have := (C36_calls_return P ns hns hnp x0 ⟨s.cl, s.srv⟩ hex hf ht).2
    refine this ?_
    intro l s' hl hst
    cases hst with
    | client _ cl cl' srv hcl hst =>
      by_cases hw : cl'.wire = s.cl.wire
      · by_cases hn : cl'.fromNet = s.cl.fromNet
        · exact hno (.step l) _ hl (.client s l cl' hrun hcl hst hw hn)
        · have hrd : s.cl.reader = .idle ∧ s.cl.fromNet ≠ [] := by
            cases hst <;> first | exact hcl.elim | exact absurd rfl hn | skip
            rename_i h1 h2
            exact ⟨h1, by simp [h2]⟩
          have hd := hi.down ho.reader
          rw [ho.downClosed] at hd
          rcases hd.ready (net_framed hi) (by simp [hrd.2]) ho.clRd with ⟨h1, h2⟩ | ⟨got, h1⟩ | ⟨got, n, h1, h2⟩
          · exact hno .io _ trivial (.clHdr s (s.down.take 7) (s.down.drop 7) hrun hrd.1 h1 (by simp) (by simp; omega))
          · exact hno (.step .client) _ trivial (.clDone s got hrun hrd.1 h1)
          · exact hno .io _ trivial (.clBody s got (s.down.take 1) (s.down.drop 1) (n + 1) hrun hrd.1 h1 (List.take_append_drop 1 _).symm (by simp; omega) (by simp; omega))
      · have hsd : ∃ c t, s.cl.sender = .stored c t := by
          cases hst <;> first | exact hcl.elim | exact absurd rfl hw | skip
          rename_i h1
          exact ⟨_, _, h1⟩
        obtain ⟨c, t, hs⟩ := hsd
        exact hno (.step .client) _ trivial (.write s c t hrun hs)
    | serve cl srv srv' c q y spare b hw hd =>
      have hu := hi.up ho.srvRd
      rw [ho.upClosed] at hu
      rcases hu.ready (wire_framed hi hf) (by simp [hw]) ho.srvRd with ⟨h1, h2⟩ | ⟨got, h1⟩ | ⟨got, n, h1, h2⟩
      · exact hno .io _ trivial (.srvHdr s (s.up.take 7) (s.up.drop 7) h1 (by simp) (by simp; omega))
      · rw [h1] at hu
        obtain ⟨qs, h3, -⟩ := hu.next (wire_framed hi hf)
        rw [hw] at h3
        simp only [List.map_cons, List.cons.injEq] at h3
        rw [← h3.1] at h1
        exact hno (.step .reply) _ trivial (.serve s q spare srv' b h1 hd)
      · exact hno .io _ trivial (.srvBody s got (s.up.take 1) (s.up.drop 1) (n + 1) h1 (List.take_append_drop 1 _).symm (by simp; omega) (by simp; omega))

/-! ### the end of file inside of a packet -/

/-- What `CallTread` makes of an Rread of which only `k` bytes of the data have arrived: it returns without an
error, and the rest of the data is whatever is behind the packet in the array of the buffer; unless the
array is too small, which is a panic. -/
theorem C92_cut_read (q : TreadPkt) (data spare : Bytes) (t : Tag) (k : Nat) (hd : data.length < 2 ^ 32) (hk : k ≤ data.length) :
    callT (.read q) spare (((RMsg.read ⟨data⟩).packet t).take (11 + k)) =
      if data.length ≤ k + spare.length then .ret (.read ⟨data.take k ++ spare.take (data.length - k)⟩) none else .panic := by
  have e1 : ((RMsg.read ⟨data⟩).packet t).take (11 + k) =
      le 4 (4 + 1 + ((RMsg.read ⟨data⟩).body t).length) ++ (le 1 117 ++ (le 2 t.toNat ++ (le 4 data.length ++ data.take k))) := by
    simp only [RMsg.packet, Spec.packet, RMsg.body, RMsg.fields, RMsg.type]
    simp [List.take_append]
    rw [List.take_of_length_le (by simp; omega), List.take_of_length_le (by simp; omega), List.take_of_length_le (by simp; omega),
      List.take_of_length_le (by simp; omega), show 11 + k - 4 - 1 - 2 - 4 = k by omega]
  have e5 : (((RMsg.read ⟨data⟩).packet t).take (11 + k)).drop 5 = le 2 t.toNat ++ (le 4 data.length ++ data.take k) := by
    rw [e1, ← List.append_assoc, List.drop_left' (by simp)]
  have e4 : (((RMsg.read ⟨data⟩).packet t).take (11 + k)).getD 4 0 = 117 := by
    rw [e1]
    simp [le]
  have el : ¬ (((RMsg.read ⟨data⟩).packet t).take (11 + k)).length < 5 := by
    rw [e1]
    simp
    omega
  obtain ⟨u₁, h₁⟩ := (codes_tag (R := RreadPkt)).fwd t trivial [] (le 4 data.length ++ data.take k) spare (fun _ => 0) 0 {}
  obtain ⟨u₂, hu, h₂⟩ := readU_full (R := RreadPkt) (n := 4) (by omega) (.shortInt 32) (le 4 data.length) (data.take k)
    ([] ++ le 2 t.toNat) spare u₁ t {} (by simp) (by simp)
  have hl : (asmLen32 u₂).toNat = data.length := len32_of_pfx hd hu
  simp only [callT, callTread, callRes, if_neg el, e4, e5]
  rw [if_neg (by decide)]
  unfold unmarshalRread Dec.run
  rw [bind_ok h₁]
  unfold getData32
  rw [bind_def, bind_ok h₂, hl]
  have hm : Nat.min k data.length = k := Nat.min_eq_left hk
  by_cases hc : data.length ≤ k + spare.length
  · have hs : (⟨[] ++ le 2 t.toNat ++ le 4 data.length, data.take k, spare⟩ : Buffer).sliceTo data.length =
        some (data.take k ++ spare.take (data.length - k)) := by
      unfold Buffer.sliceTo
      rw [if_pos (by simp [hm, Nat.min_eq_left hk]; omega)]
      simp [List.take_append, Nat.min_eq_left hk]
      rw [List.take_of_length_le (by simp; omega)]
    have h3 : takeData data.length (fun v (r : RreadPkt) => { r with Data := v })
        ⟨⟨[] ++ le 2 t.toNat ++ le 4 data.length, data.take k, spare⟩, u₂, t, {}⟩ =
        .ok () ⟨(⟨[] ++ le 2 t.toNat ++ le 4 data.length, data.take k, spare⟩ : Buffer).next data.length, u₂, t,
          ⟨data.take k ++ spare.take (data.length - k)⟩⟩ := by
      simp only [takeData, hs]
    rw [h3, if_pos hc]
    have h4 : (⟨[] ++ le 2 t.toNat ++ le 4 data.length, data.take k, spare⟩ : Buffer).next data.length =
        ⟨[] ++ le 2 t.toNat ++ le 4 data.length ++ data.take k, [], spare⟩ := by
      simp [Buffer.next, List.take_take]
      omega
    rw [h4]
    rfl
  · have hs : (⟨[] ++ le 2 t.toNat ++ le 4 data.length, data.take k, spare⟩ : Buffer).sliceTo data.length = none := by
      unfold Buffer.sliceTo
      rw [if_neg (by simp [Nat.min_eq_left hk]; omega)]
    have h3 : takeData data.length (fun v (r : RreadPkt) => { r with Data := v })
        ⟨⟨[] ++ le 2 t.toNat ++ le 4 data.length, data.take k, spare⟩, u₂, t, {}⟩ = .panic := by
      simp only [takeData, hs]
    rw [h3, if_neg hc]
    rfl

/-- a call up to the reply of the server, with bytes that arrive in the largest possible pieces -/
theorem call_out {ns : NineServer σ} (s : Wired σ) (m : TMsg) (t : Tag) (ts : List Tag) (srv' : Server σ) (b : Buffer)
    (h1 : s.cl.phase 0 = .idle) (h2 : s.cl.sending = []) (h3 : s.cl.fromClient = []) (h4 : s.cl.sender = .idle)
    (h5 : s.cl.tags = t :: ts) (h6 : s.cl.reader = .idle) (h7 : s.cl.recv = .idle) (h8 : s.cl.wire = []) (h9 : s.cl.replied = [])
    (k1 : s.up = []) (k2 : s.upClosed = false) (k3 : s.srvRd = .hdr) (k4 : s.down = []) (k5 : s.downClosed = false) (k6 : s.exited = false)
    (k7 : s.clRd = .hdr) (k8 : s.cl.msg = fun _ => none) (k9 : s.cl.taken = [])
    (hl : (m.packet t).length < 2 ^ 32) (hlong : 7 < (m.packet t).length)
    (hd : dispatch ns s.srv ⟨[], (m.packet t).drop 5, []⟩ ((m.packet t).getD 4 0) = .done srv' b) :
    ∃ s', WExec ns Smooth s s' ∧ s'.cl.phase 0 = .waiting ∧ s'.cl.msg = upd (fun _ => none) 0 (some m) ∧ s'.cl.reader = .idle ∧
      s'.cl.recv = .idle ∧ s'.cl.rpc (t.toNat - 1) = some 0 ∧ s'.cl.replied = [(0, m.packet t, b.bytes)] ∧ s'.clRd = .hdr ∧
      s'.down = b.bytes ∧ s'.downClosed = false ∧ s'.exited = false ∧ s'.srv = srv' ∧ s'.cl.taken = [] := by
  have hset : setTag (encodeT {} 0 m).bytes t = m.packet t := by
    rw [C04_wire_layout.1]
    exact setTag_packet m 0 t
  have hr : s.Running := ⟨by simp [Alive, h7], k6⟩
  have e1 := WExec.step (L := Smooth) s s _ _ (WExec.refl _) (by trivial)
    (WStep.client (ns := ns) s .call _ hr trivial (Step.call s.cl 0 m h1) rfl rfl)
  have e2 := WExec.step s _ _ _ e1 (by trivial)
    (WStep.client _ .client _ hr trivial (Step.enqueue _ [] [] 0 (by simp [h2]) (by simp [h3, NumTags])) rfl rfl)
  have e3 := WExec.step s _ _ _ e2 (by trivial)
    (WStep.client _ .client _ hr trivial (Step.takeReq _ 0 [] h4 (by simp [h3])) rfl rfl)
  have e4 := WExec.step s _ _ _ e3 (by trivial)
    (WStep.client _ .client _ hr trivial (Step.takeTag _ 0 t ts rfl h5) rfl rfl)
  have e5 := WExec.step s _ _ _ e4 (by trivial)
    (WStep.client _ .client _ hr trivial (Step.putTag _ 0 t rfl) rfl rfl)
  have e6 := WExec.step s _ _ _ e5 (by trivial)
    (WStep.client _ .client _ hr trivial (Step.store _ 0 t rfl) rfl rfl)
  have e7 := WExec.step s _ _ _ e6 (by trivial) (WStep.write _ 0 t hr rfl)
  have hup : (if s.upClosed = true then s.up else s.up ++ upd (upd s.cl.buf 0 (encodeT {} 0 m).bytes) 0
      (setTag (upd s.cl.buf 0 (encodeT {} 0 m).bytes 0) t) 0) = m.packet t := by
    simp [k2, k1, upd, hset]
  have e8 := WExec.step s _ _ _ e7 (by trivial) (WStep.srvHdr _ ((m.packet t).take 7) ((m.packet t).drop 7) k3
    (by simpa using hup) (by simp; omega))
  have hsz : hdrSize ((m.packet t).take 7) - 7 = ((m.packet t).drop 7).length := by
    have h := (packet_framing m t hl).1
    rw [hdrSize_eq (by omega)]
    unfold pktLen at h
    simp
    omega
  have e9 := WExec.step s _ _ _ e8 (by trivial) (WStep.srvBody _ _ ((m.packet t).drop 7) [] _ rfl (by simp) (by simp; omega)
    (by rw [hsz]; exact Nat.le_refl _))
  have e10 := WExec.step s _ _ _ e9 (by trivial) (WStep.serve _ (m.packet t) [] srv' b (by simp [hsz]) hd)
  refine ⟨_, e10, ?_, ?_, ?_, ?_, ?_, ?_, ?_, ?_, ?_, ?_, ?_, ?_⟩ <;>
    simp [answered, sentOff, h8, h9, upd, h6, h7, k4, k5, k6, k7, k8, k9, hset]

/-- a packet that has been read is given to its caller -/
theorem call_in {ns : NineServer σ} {L : WLabel → Prop} (hL : L (.step .client)) (s0 s : Wired σ) (t : Tag) (got : Bytes)
    (he : WExec ns L s0 s) (h1 : s.cl.phase 0 = .waiting) (h2 : s.cl.reader = .idle) (h3 : s.cl.recv = .idle)
    (h4 : s.cl.rpc (t.toNat - 1) = some 0) (h5 : s.clRd = .body got 0) (h6 : s.exited = false) (ht : pktTag got = t) (hlegal : Legal t) :
    ∃ s', WExec ns L s0 s' ∧ s'.cl.phase 0 = .done got ∧ s'.cl.msg = s.cl.msg ∧ s'.cl.replied = s.cl.replied ∧ s'.srv = s.srv ∧
      s'.cl.taken = s.cl.taken := by
  have hr : s.Running := ⟨by simp [Alive, h3], h6⟩
  have e1 := WExec.step s0 _ _ _ he hL (WStep.clDone s got hr h2 h5)
  have e2 := WExec.step s0 _ _ _ e1 hL (WStep.client _ .client _ hr trivial (Step.handOver _ _ rfl h3) rfl rfl)
  have e3 := WExec.step s0 _ _ _ e2 hL (WStep.client _ .client _ ⟨by simp [Alive], h6⟩ trivial (Step.lookup _ _ rfl) rfl rfl)
  have hlk : lookup true s.cl.rpc got = .found 0 t got := by
    obtain ⟨l1, l2⟩ := hlegal
    have hlt : ¬ t < 1 := by rw [UInt16.lt_iff_toNat_lt]; simp; omega
    simp only [lookup, ht, h4, if_neg hlt]
    rw [if_neg (by simp [NumTags]; omega)]
    simp
  have e4 := WExec.step s0 _ _ _ e3 hL (WStep.client _ .client _ ⟨by simp [Alive, received, hlk], h6⟩ trivial
    (Step.deliver _ 0 t got (by simpa [received] using hlk) h1) rfl rfl)
  exact ⟨_, e4, by simp [upd], rfl, rfl, rfl, rfl⟩

/-- a file server with one file that contains 1, 2, 3 -/
def dataNS : NineServer Nat := { countNS with Rread := fun _ _ _ n => .ok (n + 1) [1, 2, 3] }

theorem dataNS_modest : Modest (fun _ => True) dataNS := by
  intro m x _ hm
  have hc := countNS_modest m x trivial hm
  constructor
  · intro x' r h
    cases m with
    | read p =>
      simp only [call, dataNS, mapRes, NRes.ok.injEq] at h
      obtain ⟨-, rfl⟩ := h
      simp [RMsg.Fits, RMsg.packet, Spec.packet, RMsg.body, RMsg.fields]
    | _ => exact hc.1 x' r h
  · intro x' e h
    cases m with
    | read p => simp [call, dataNS, mapRes] at h
    | _ => exact hc.2 x' e h

theorem init_tags : ∃ ts, init.tags = 1 :: ts := by
  unfold init
  dsimp only
  exact first_tag _ (by simp [NOTAG])

/-- the reply to a read of `dataNS` -/
def dataReply : Bytes := (RMsg.read ⟨[1, 2, 3]⟩).packet 1

/-- the read has been sent and answered, and the answer is under way -/
theorem data_out : ∃ s, WExec dataNS Smooth (Wired.start 0) s ∧ s.cl.phase 0 = .waiting ∧
    s.cl.msg = upd (fun _ => none) 0 (some (.read ⟨7, 0, 3⟩)) ∧ s.cl.reader = .idle ∧
    s.cl.recv = .idle ∧ s.cl.rpc 0 = some 0 ∧ s.cl.replied = [(0, (TMsg.read ⟨7, 0, 3⟩).packet 1, dataReply)] ∧ s.clRd = .hdr ∧
    s.down = dataReply ∧ s.downClosed = false ∧ s.exited = false ∧ s.srv = ⟨1, true⟩ ∧ s.cl.taken = [] := by
  obtain ⟨ts, hts⟩ := init_tags
  obtain ⟨b, hb, hd⟩ : ∃ b : Buffer, b.bytes = dataReply ∧
      dispatch dataNS ⟨0, true⟩ ⟨[], ((TMsg.read ⟨7, 0, 3⟩).packet 1).drop 5, []⟩ (((TMsg.read ⟨7, 0, 3⟩).packet 1).getD 4 0) =
        .done ⟨1, true⟩ b := ⟨_, rfl, rfl⟩
  have := call_out (ns := dataNS) (Wired.start 0) (.read ⟨7, 0, 3⟩) 1 ts ⟨1, true⟩ b rfl rfl rfl rfl hts rfl rfl rfl rfl rfl rfl rfl
    rfl rfl rfl rfl rfl rfl (by decide) (by decide) hd
  rw [hb] at this
  exact this

/-- C92: a call that returns what the file server gave -/
example : ∃ s b, WExec dataNS Smooth (Wired.start 0) s ∧ CallsFit (fun _ => True) s.cl ∧ s.cl.phase 0 = .done b ∧
    callT (.read ⟨7, 0, 3⟩) [] b = .ret (.read ⟨[1, 2, 3]⟩) none := by
  obtain ⟨s, he, h1, h2, h3, h4, h5, h6, h7, h8, h9, k1, k2, k3⟩ := data_out
  have hr : s.Running := ⟨by simp [Alive, h4], k1⟩
  have e1 := WExec.step _ _ _ _ he (by trivial) (WStep.clHdr s (dataReply.take 7) (dataReply.drop 7) hr h3 h7 (by simp [h8]) rfl)
  have e2 := WExec.step _ _ _ _ e1 (by trivial) (WStep.clBody _ (dataReply.take 7) ((dataReply.drop 7).take 2) ((dataReply.drop 7).drop 2) 7
    hr h3 rfl rfl (by decide) (by decide))
  have e3 := WExec.step _ _ _ _ e2 (by trivial) (WStep.clBody _ _ ((dataReply.drop 7).drop 2) [] 5
    hr h3 rfl (by simp) (by decide) (by decide))
  obtain ⟨s', g1, g2, g3, g4, -⟩ := call_in (by trivial) _ _ 1 dataReply e3 h1 h3 h4 h5 rfl k1 rfl (by unfold Legal; decide)
  refine ⟨s', dataReply, g1, ?_, g2, rfl⟩
  intro c m hm
  rw [g3] at hm
  simp only [h2, upd] at hm
  split at hm
  · cases hm
    exact ⟨trivial, by simp [TMsg.Fits], fun t => by simp [TMsg.packet, Spec.packet, TMsg.body, TMsg.fields]⟩
  · cases hm

/-- **C92 is false**: the server's reply to a read is cut off behind the first byte of the data, and the
connection ends with an end of file.  The client takes what has arrived for a complete packet, and the call
returns, without an error, the first byte of the data and then what happened to be in the buffer behind it. -/
theorem C92_counterexample : ∃ s b, WExec dataNS NoTruncReq (Wired.start 0) s ∧ CallsFit (fun _ => True) s.cl ∧ served s = [0] ∧
    s.cl.msg 0 = some (.read ⟨7, 0, 3⟩) ∧ s.cl.phase 0 = .done b ∧
    runCalls dataNS [.read ⟨7, 0, 3⟩] 0 = some (s.srv.ns, [.ok (.read ⟨[1, 2, 3]⟩)]) ∧
    ∀ spare, 2 ≤ spare.length → callT (.read ⟨7, 0, 3⟩) spare b = .ret (.read ⟨1 :: spare.take 2⟩) none := by
  obtain ⟨s, he, h1, h2, h3, h4, h5, h6, h7, h8, h9, k1, k2, k3⟩ := data_out
  have hr : s.Running := ⟨by simp [Alive, h4], k1⟩
  have e0 := wexec_weaken (L' := NoTruncReq) (fun l hl => (smooth_noTrunc l hl).2) he
  have e1 := WExec.step _ _ _ _ e0 (by simp [NoTruncReq]) (WStep.cutDown s (dataReply.take 12) (dataReply.drop 12) (by simp [h8]))
  have e2 := WExec.step _ _ _ _ e1 (by simp [NoTruncReq]) (WStep.clHdr _ (dataReply.take 7) ((dataReply.take 12).drop 7) hr h3 h7 rfl rfl)
  have e3 := WExec.step _ _ _ _ e2 (by simp [NoTruncReq]) (WStep.clBody _ (dataReply.take 7) ((dataReply.take 12).drop 7) [] 7
    hr h3 rfl (by simp) (by decide) (by decide))
  have e4 := WExec.step _ _ _ _ e3 (by simp [NoTruncReq]) (WStep.clBodyEOF _ _ 1 hr h3 rfl rfl rfl)
  obtain ⟨s', g1, g2, g3, g4, g5, -⟩ := call_in (by simp [NoTruncReq]) _ _ 1 (dataReply.take 12) e4 h1 h3 h4 h5 rfl k1 rfl (by unfold Legal; decide)
  refine ⟨s', _, g1, ?_, ?_, ?_, g2, ?_, ?_⟩
  · intro c m hm
    rw [g3] at hm
    simp only [h2, upd] at hm
    split at hm
    · cases hm
      exact ⟨trivial, by simp [TMsg.Fits], fun t => by simp [TMsg.packet, Spec.packet, TMsg.body, TMsg.fields]⟩
    · cases hm
  · simp [served, g4, h6]
  · simp [g3, h2, upd]
  · simp only [g5, k2]
    rfl
  · intro spare hs
    have := C92_cut_read ⟨7, 0, 3⟩ [1, 2, 3] spare 1 1 (by decide) (by decide)
    rw [if_pos (by simp; omega)] at this
    exact this

end Ninep.Client

namespace Ninep.Ufs
open Spec
variable {ω H : Type} {host : Host ω H} {user : GoString}

open Client in
/-- **C92, partial** for this file server: whatever pieces the bytes arrive in and wherever the connection
breaks, every call that has returned has returned what its method gave when the methods were called one
after the other.  Missing is the end of file inside of a packet. -/
theorem C92_stack_partial (hh : host.Short) (hu : user.length < 2 ^ 13) (root : GoString) (w : ω) (s : Wired (State ω H))
    (he : WExec (ufs host user) NoTrunc (Wired.start (newFS root w)) s) (hf : CallsFit Ordinary s.cl) :
    (served s).Nodup ∧ served s <+: s.cl.written.map Prod.fst ∧
    ∃ ms outs, (served s).map s.cl.msg = ms.map some ∧ runCalls (ufs host user) ms (newFS root w) = some (s.srv.ns, outs) ∧
      ∀ c b, s.cl.phase c = .done b → ∃ (i : Nat) (m : TMsg) (r : Except GoString RMsg), (served s)[i]? = some c ∧
        ms[i]? = some m ∧ outs[i]? = some r ∧ ∀ spare, callT m spare b = asCall m r :=
  C92_bytes_partial Ordinary _ (ufs_modest hh hu) _ s he hf

open Client in
/-- **C92**, progress for this file server. -/
theorem C92_stack_returns_partial (hh : host.Short) (hu : user.length < 2 ^ 13) (root : GoString) (w : ω) (s : Wired (State ω H))
    (he : WExec (ufs host user) Smooth (Wired.start (newFS root w)) s) (hf : CallsFit Ordinary s.cl) (ht : s.cl.taken.length < 65534) :
    (¬ ∃ f : Nat → Wired (State ω H), f 0 = s ∧ ∀ n, ∃ l, wSettling l ∧ WStep (ufs host user) l (f n) (f (n + 1))) ∧
    ((∀ l s', wSettling l → ¬ WStep (ufs host user) l s s') → ∀ c, s.cl.phase c ≠ .idle → ∃ b, s.cl.phase c = .done b) :=
  C92_returns_partial Ordinary _ (ufs_modest hh hu) (fun m x hm => ufs_returns m x hm) _ s he hf ht

open Client in
/-- C92: an attach whose reply is under way -/
example : ∃ s, WExec (ufs Mem.shortHost (lit "harvey")) Smooth (Wired.start (newFS [47, 120] Mem.world0)) s ∧
    CallsFit Ordinary s.cl ∧ served s = [0] ∧ s.cl.phase 0 = .waiting ∧ s.cl.msg 0 = some (.attach { SFID := 0, AFID := 0xFFFFFFFF }) ∧
    s.cl.taken = [] ∧ s.down ≠ [] := by
  obtain ⟨ts, hts⟩ := init_tags
  obtain ⟨srv', b, hb, hd⟩ : ∃ srv' b, b.bytes ≠ [] ∧ dispatch (ufs Mem.shortHost (lit "harvey")) ⟨newFS [47, 120] Mem.world0, true⟩
      ⟨[], ((TMsg.attach { SFID := 0, AFID := 0xFFFFFFFF }).packet 1).drop 5, []⟩
      (((TMsg.attach { SFID := 0, AFID := 0xFFFFFFFF }).packet 1).getD 4 0) = .done srv' b := ⟨_, _, by decide, rfl⟩
  obtain ⟨s, h1, h2, h3, -, -, -, h4, -, h5, -, -, -, h6⟩ := call_out (ns := ufs Mem.shortHost (lit "harvey"))
    (Wired.start (newFS [47, 120] Mem.world0)) (.attach { SFID := 0, AFID := 0xFFFFFFFF }) 1 ts srv' b rfl rfl rfl rfl hts rfl rfl rfl rfl
    rfl rfl rfl rfl rfl rfl rfl rfl rfl (by decide) (by decide) hd
  refine ⟨s, h1, ?_, by simp [served, h4], h2, by simp [h3, upd], h6, by rw [h5]; exact hb⟩
  intro c m hm
  rw [h3] at hm
  simp only [upd] at hm
  split at hm
  · cases hm
    simp [Ordinary, TMsg.Fits, TMsg.packet, Spec.packet, TMsg.body, TMsg.fields, str]
  · cases hm

end Ninep.Ufs
