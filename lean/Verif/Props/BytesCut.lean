import Verif.Props.Bytes

set_option linter.unusedSimpArgs false
set_option linter.unusedVariables false

/-
Property C92: what an end of file inside of a reply does.
-/

namespace Ninep.Client
open Spec
variable {σ : Type}

/-- the reply to call `c` has been cut off behind `n` bytes -/
structure Cut where
  c : Nat
  n : Nat

def Cut.bytes (k : Cut) (o : Option Nat) (b : Bytes) : Bytes := if o = some k.c then b.take k.n else b

def Cut.reply (k : Cut) (r : Reply) : Reply := { r with bytes := k.bytes r.owner r.bytes }

def Cut.reader (k : Cut) : Reader → Reader
  | .holding r => .holding (k.reply r)
  | x => x

def Cut.recv (k : Cut) : Recv → Recv
  | .got r => .got (k.reply r)
  | .found c t b => .found c t (k.bytes (some c) b)
  | x => x

def Cut.phase (k : Cut) (c : Nat) : Phase → Phase
  | .done b => .done (k.bytes (some c) b)
  | x => x

/-- the client with the reply cut off, wherever the client has it -/
def Cut.state (k : Cut) (s : State) : State :=
  { s with reader := k.reader s.reader, recv := k.recv s.recv, phase := fun c => k.phase c (s.phase c) }

theorem Cut.phase_upd (k : Cut) (f : Nat → Phase) (c : Nat) (x : Phase) :
    (fun d => k.phase d (upd f c x d)) = upd (fun d => k.phase d (f d)) c (k.phase c x) := by
  funext d
  unfold upd
  split
  · rename_i h; rw [h]
  · rfl

theorem Cut.phase_idle {k : Cut} {c : Nat} {x : Phase} (h : k.phase c x = .idle) : x = .idle := by
  cases x <;> simp [Cut.phase] at h ⊢

theorem Cut.phase_waiting {k : Cut} {c : Nat} {x : Phase} (h : k.phase c x = .waiting) : x = .waiting := by
  cases x <;> simp [Cut.phase] at h ⊢

theorem pktTag_take {n : Nat} (h : 7 ≤ n) (b : Bytes) : pktTag (b.take n) = pktTag b := by
  unfold pktTag
  rw [getD_take (by omega), getD_take (by omega)]

/-- a reply that has been cut off goes to the same call -/
theorem Cut.lookup (k : Cut) (hk : 7 ≤ k.n) {a : State} (hi : Inv a) {r : Reply} (hr : a.recv = .got r) :
    lookup true a.rpc (k.reply r).bytes = k.recv (Client.lookup true a.rpc r.bytes) := by
  obtain ⟨c, h1, h2⟩ := hi.link r.fl (by simp [flights, hr, Recv.fl])
  have h1 : r.owner = some c := h1
  have h2 : a.rpc ((pktTag r.bytes).toNat - 1) = some c := h2
  have htag : pktTag (k.reply r).bytes = pktTag r.bytes := by
    unfold Cut.reply Cut.bytes
    dsimp only
    split
    · exact pktTag_take hk _
    · rfl
  unfold Client.lookup
  simp only [htag, h2]
  split
  · rfl
  · split
    · rfl
    · simp [Cut.recv, Cut.reply, h1]

/-- a step of the client with the reply cut off is a step of the client -/
theorem Cut.step (k : Cut) (hk : 7 ≤ k.n) {a y : State} {l : Label} (hi : Inv a) (ho : a.closed = false) (hl : ClientSide l)
    (hs : Step true l (k.state a) y) (hw : y.wire = a.wire) (hn : y.fromNet = a.fromNet) :
    ∃ a', Step true l a a' ∧ y = k.state a' ∧ a'.wire = a.wire ∧ a'.fromNet = a.fromNet := by
  cases hs with
  | reply | junk | close => exact hl.elim
  | call _ c m h1 =>
    refine ⟨_, Step.call a c m (Cut.phase_idle h1), ?_, rfl, rfl⟩
    simp only [Cut.state, Cut.phase_upd]
    rfl
  | getTag _ t ts h1 => exact ⟨_, Step.getTag a t ts h1, rfl, rfl, rfl⟩
  | enqueue _ x y c h1 h2 =>
    refine ⟨_, Step.enqueue a x y c h1 h2, ?_, rfl, rfl⟩
    simp only [Cut.state, Cut.phase_upd]
    rfl
  | takeReq _ c cs h1 h2 => exact ⟨_, Step.takeReq a c cs h1 h2, rfl, rfl, rfl⟩
  | takeTag _ c t ts h1 h2 => exact ⟨_, Step.takeTag a c t ts h1 h2, rfl, rfl, rfl⟩
  | putTag _ c t h1 => exact ⟨_, Step.putTag a c t h1, rfl, rfl, rfl⟩
  | store _ c t h1 => exact ⟨_, Step.store a c t h1, rfl, rfl, rfl⟩
  | write _ c t h1 =>
    have := congrArg List.length hw
    simp [Cut.state] at this
  | read _ r rs h1 h2 =>
    have := congrArg List.length hn
    have h2 : a.fromNet = r :: rs := h2
    simp [h2] at this
  | readEOF _ h1 h2 h3 =>
    have h3 : a.closed = true := h3
    rw [h3] at ho
    cases ho
  | handOver _ r h1 h2 =>
    have h1 : k.reader a.reader = .holding r := h1
    have h2 : k.recv a.recv = .idle := h2
    have h2' : a.recv = .idle := by
      cases hr : a.recv <;> simp [hr, Cut.recv] at h2 ⊢
    cases hrd : a.reader with
    | holding r0 =>
      simp only [hrd, Cut.reader, Reader.holding.injEq] at h1
      subst h1
      exact ⟨_, Step.handOver a r0 hrd h2', rfl, rfl, rfl⟩
    | idle => simp [hrd, Cut.reader] at h1
    | stopped => simp [hrd, Cut.reader] at h1
    | off => simp [hrd, Cut.reader] at h1
  | handOverNil _ h1 h2 =>
    have h1 : k.reader a.reader = .stopped := h1
    have h2 : k.recv a.recv = .idle := h2
    have h2' : a.recv = .idle := by
      cases hr : a.recv <;> simp [hr, Cut.recv] at h2 ⊢
    have h1' : a.reader = .stopped := by
      cases hr : a.reader <;> simp [hr, Cut.reader] at h1 ⊢
    exact ⟨_, Step.handOverNil a h1' h2', rfl, rfl, rfl⟩
  | lookup _ r h1 =>
    have h1 : k.recv a.recv = .got r := h1
    cases hr : a.recv with
    | got r0 =>
      simp only [hr, Cut.recv, Recv.got.injEq] at h1
      subst h1
      refine ⟨_, Step.lookup a r0 hr, ?_, rfl, rfl⟩
      have := Cut.lookup k hk hi hr
      simp only [Cut.state]
      rw [← this]
    | idle => simp [hr, Cut.recv] at h1
    | found c t b => simp [hr, Cut.recv] at h1
    | retag t => simp [hr, Cut.recv] at h1
    | panicked => simp [hr, Cut.recv] at h1
  | deliver _ c t b h1 h2 =>
    have h1 : k.recv a.recv = .found c t b := h1
    have h2 : k.phase c (a.phase c) = .waiting := h2
    cases hr : a.recv with
    | found c0 t0 b0 =>
      simp only [hr, Cut.recv, Recv.found.injEq] at h1
      obtain ⟨rfl, rfl, rfl⟩ := h1
      refine ⟨_, Step.deliver a c0 t0 b0 hr (Cut.phase_waiting h2), ?_, rfl, rfl⟩
      simp only [Cut.state, Cut.phase_upd]
      rfl
    | idle => simp [hr, Cut.recv] at h1
    | got r0 => simp [hr, Cut.recv] at h1
    | retag t => simp [hr, Cut.recv] at h1
    | panicked => simp [hr, Cut.recv] at h1
  | retag _ t h1 h2 =>
    have h1 : k.recv a.recv = .retag t := h1
    cases hr : a.recv with
    | retag t0 =>
      simp only [hr, Cut.recv, Recv.retag.injEq] at h1
      subst h1
      exact ⟨_, Step.retag a t0 hr h2, rfl, rfl, rfl⟩
    | idle => simp [hr, Cut.recv] at h1
    | got r0 => simp [hr, Cut.recv] at h1
    | found c t b => simp [hr, Cut.recv] at h1
    | panicked => simp [hr, Cut.recv] at h1

/-- as long as the reply is on its way, cutting it off does not change the client -/
theorem Cut.state_id (k : Cut) {a : State} (hi : Inv a) {r : Reply} {rs : List Reply} (hn : a.fromNet = r :: rs)
    (ho : r.owner = some k.c) : k.state a = a := by
  have hc := hi.calls k.c
  have hpos : 1 ≤ (a.phase k.c).w := by
    rw [← hc]
    simp [allCalls, flights, hn, Reply.fl, ho]
    omega
  have hph : a.phase k.c = .waiting := by
    cases hp : a.phase k.c <;> simp [hp, Phase.w] at hpos ⊢
  rw [hph] at hc
  simp only [Phase.w, allCalls, flights, hn, List.map_append, List.map_cons, Reply.fl, ho, List.count_append, List.count_cons_self,
    List.cons_append] at hc
  have hrd : k.reader a.reader = a.reader := by
    cases hr : a.reader with
    | holding x =>
      have : x.owner ≠ some k.c := by
        intro h
        simp [hr, Reader.fl, Reply.fl, h] at hc
        omega
      simp [Cut.reader, Cut.reply, Cut.bytes, this]
    | _ => rfl
  have hrv : k.recv a.recv = a.recv := by
    cases hr : a.recv with
    | got x =>
      have : x.owner ≠ some k.c := by
        intro h
        simp [hr, Recv.fl, Reply.fl, h] at hc
        omega
      simp [Cut.recv, Cut.reply, Cut.bytes, this]
    | found c t b =>
      have : c ≠ k.c := by
        intro h
        simp [hr, Recv.fl, h] at hc
        omega
      simp [Cut.recv, Cut.bytes, this]
    | _ => rfl
  have hps : (fun c => k.phase c (a.phase c)) = a.phase := by
    funext c
    by_cases hck : c = k.c
    · subst hck; rw [hph]; rfl
    · cases hp : a.phase c <;> simp [Cut.phase, Cut.bytes, hck]
  simp only [Cut.state, hrd, hrv, hps]

/-! ### the executions with a reply that has been cut off -/

/-- the bytes and the packets after the end of file inside of the reply to call `k.c` -/
structure CutInv (ns : NineServer σ) (x0 : σ) (k : Cut) (s : Wired σ) (a : Sys σ) : Prop where
  sys : SysInv ns x0 a
  pk : s.packets = ⟨k.state a.cl, a.srv⟩
  up : s.srvRd ≠ .stopped → Framed s.srvRd s.up s.upClosed (s.cl.wire.map Prod.snd)
  seven : 7 ≤ k.n
  down : s.down = []
  closed : s.downClosed = true
  rd : s.clRd = .hdr ∨ ∃ r rs, s.clRd = .body (r.bytes.take k.n) 0 ∧ s.cl.fromNet = r :: rs ∧ r.owner = some k.c
  was : ∃ q p, (k.c, q, p) ∈ a.cl.replied ∧ k.n < p.length

theorem replied_step {ns : NineServer σ} {s s' : Sys σ} {l : Label} (hs : SysStep ns l s s') : s.cl.replied <+: s'.cl.replied := by
  cases hs with
  | serve => simp
  | client _ cl cl' srv hl hst => cases hst <;> first | exact hl.elim | exact List.prefix_refl _

theorem cut_wire {P : TMsg → Prop} {ns : NineServer σ} {x0 : σ} {k : Cut} {s : Wired σ} {a : Sys σ} (h : CutInv ns x0 k s a)
    (hf : CallsFit P s.cl) : ∀ p ∈ s.cl.wire.map Prod.snd, p.length = pktLen p := by
  have e1 : s.cl.wire = a.cl.wire := congrArg (fun x : Sys σ => x.cl.wire) h.pk
  have e2 : s.cl.msg = a.cl.msg := congrArg (fun x : Sys σ => x.cl.msg) h.pk
  intro p hp
  obtain ⟨x, hx, rfl⟩ := List.mem_map.1 hp
  rw [e1] at hx
  obtain ⟨m, t, -, hm, hq⟩ := h.sys.inv.wire x hx
  rw [hq]
  rw [← e2] at hm
  exact (packet_framing m t ((hf x.1 m hm).2.2 t)).1

theorem cut_serve {P : TMsg → Prop} {ns : NineServer σ} {x0 : σ} {k : Cut} {s : Wired σ} {a : Sys σ} (h : CutInv ns x0 k s a)
    (hf : CallsFit P s.cl) {got spare : Bytes} {srv' : Server σ} {b : Buffer} (hrd : s.srvRd = .body got 0)
    (hd : dispatch ns s.srv ⟨[], got.drop 5, spare⟩ (got.getD 4 0) = .done srv' b) :
    ∃ c y, s.cl.wire = (c, got) :: y ∧ Framed .hdr s.up s.upClosed (y.map Prod.snd) ∧ ∃ a', SysStep ns .reply a a' ∧
      ∀ s' : Wired σ, s'.cl = answered s.cl b.bytes → s'.srv = srv' → s'.packets = ⟨k.state a'.cl, a'.srv⟩ := by
  have e1 : s.cl.wire = a.cl.wire := congrArg (fun x : Sys σ => x.cl.wire) h.pk
  have e3 : s.srv = a.srv := congrArg (fun x : Sys σ => x.srv) h.pk
  have e4 := congrArg (fun x : Sys σ => x.cl) h.pk
  have hu := h.up (by rw [hrd]; simp)
  rw [hrd] at hu
  obtain ⟨qs, h1, h2⟩ := hu.next (cut_wire h hf)
  match hw : s.cl.wire, h1 with
  | (c, q) :: y, h1 =>
    simp only [List.map_cons, List.cons.injEq] at h1
    obtain ⟨rfl, rfl⟩ := h1
    have hwa : a.cl.wire = (c, q) :: y := e1.symm.trans hw
    refine ⟨c, y, rfl, h2, ⟨_, srv'⟩, SysStep.serve (ns := ns) a.cl a.srv srv' c q y spare b hwa (by rw [← e3]; exact hd), ?_⟩
    intro s' hc hsv
    simp only [Wired.packets, hc, hsv, answered_cons hw]
    have := congrArg (fun x : State => ({ x with
      wire := y
      fromNet := x.fromNet ++ [{ owner := some c, bytes := b.bytes }]
      replied := x.replied ++ [(c, q, b.bytes)] } : State)) e4
    exact congrArg (fun x => (⟨x, srv'⟩ : Sys σ)) this

/-- a step after the end of file -/
theorem cut_step {P : TMsg → Prop} {ns : NineServer σ} (hns : Modest P ns) {x0 : σ} {k : Cut} {s s' : Wired σ} {a : Sys σ} {l : WLabel}
    (h : CutInv ns x0 k s a) (hf : CallsFit P s.cl) (hf' : CallsFit P s'.cl) (hl : l ≠ .truncReq) (hs : WStep ns l s s') :
    ∃ a', CutInv ns x0 k s' a' ∧ (a' = a ∨ ∃ l', SysStep ns l' a a') := by
  have e1 : s.cl.wire = a.cl.wire := congrArg (fun x : Sys σ => x.cl.wire) h.pk
  have e2 : s.cl.msg = a.cl.msg := congrArg (fun x : Sys σ => x.cl.msg) h.pk
  have e3 : s.srv = a.srv := congrArg (fun x : Sys σ => x.srv) h.pk
  have e4 := congrArg (fun x : Sys σ => x.cl) h.pk
  have e5 : s.cl.fromNet = a.cl.fromNet := congrArg (fun x : Sys σ => x.cl.fromNet) h.pk
  have key : ∀ a', (a' = a ∨ ∃ l', SysStep ns l' a a') → s'.packets = ⟨k.state a'.cl, a'.srv⟩ →
      (s'.srvRd ≠ .stopped → Framed s'.srvRd s'.up s'.upClosed (s'.cl.wire.map Prod.snd)) → s'.down = [] → s'.downClosed = true →
      (s'.clRd = .hdr ∨ ∃ r rs, s'.clRd = .body (r.bytes.take k.n) 0 ∧ s'.cl.fromNet = r :: rs ∧ r.owner = some k.c) →
      ∃ a', CutInv ns x0 k s' a' ∧ (a' = a ∨ ∃ l', SysStep ns l' a a') := by
    intro a' ha hp hu hd hc hr
    refine ⟨a', ?_, ha⟩
    have em : s'.cl.msg = a'.cl.msg := congrArg (fun x : Sys σ => x.cl.msg) hp
    rcases ha with rfl | ⟨l', ha⟩
    · exact ⟨h.sys, hp, hu, h.seven, hd, hc, hr, h.was⟩
    · have hf2 : CallsFit P a'.cl := by unfold CallsFit; rw [← em]; exact hf'
      refine ⟨(sys_step hns h.sys hf2 ha).2.2, hp, hu, h.seven, hd, hc, hr, ?_⟩
      obtain ⟨q, p, h1, h2⟩ := h.was
      obtain ⟨w, hw⟩ := replied_step ha
      exact ⟨q, p, by rw [← hw]; exact List.mem_append_left _ h1, h2⟩
  have hnil : ∀ x r : Bytes, s.down = x ++ r → 0 < x.length → False := by
    intro x r hu h0
    rw [h.down] at hu
    have := congrArg List.length hu
    simp at this
    omega
  have hbody : ∀ got n, s.clRd = .body got (n + 1) → False := by
    intro got n hg
    rcases h.rd with hr | ⟨r, rs, hr, -, -⟩ <;> rw [hg] at hr <;> simp at hr
  cases hs with
  | srvBodyEOF => exact absurd rfl hl
  | client _ l' cl' hr hcl hst hw hn =>
    have hopen : s.cl.closed = false := (congrArg (fun x : Sys σ => x.cl.closed) h.pk).trans h.sys.open_.closed
    have lift : ∀ y, ∀ l1, ClientSide l1 → Step true l1 s.packets.cl y → y.wire = s.cl.wire → y.fromNet = s.cl.fromNet →
        ∃ z, SysStep ns l1 a ⟨z, a.srv⟩ ∧ y = k.state z := by
      intro y l1 hl1 hy h1 h2
      have hp : s.packets.cl = k.state a.cl := e4
      rw [hp] at hy
      obtain ⟨z, hz, hyz, -, -⟩ := Cut.step k h.seven h.sys.inv h.sys.open_.closed hl1 hy (h1.trans e1) (h2.trans e5)
      exact ⟨z, SysStep.client _ _ _ _ hl1 hz, hyz⟩
    have hnp : ∀ y, Step true .client s.packets.cl y → y.wire = s.cl.wire → y.fromNet = s.cl.fromNet → y.msg = s.cl.msg → y.recv ≠ .panicked := by
      intro y hy h1 h2 h3
      obtain ⟨z, hz, rfl⟩ := lift y .client trivial hy h1 h2
      have h3 : z.msg = s.cl.msg := h3
      have hfz : CallsFit P z := by unfold CallsFit; rw [h3]; exact hf
      have := (sys_step hns h.sys (s' := ⟨z, a.srv⟩) hfz hz).2.2.open_.recv
      have this : z.recv ≠ .panicked := this
      cases hzr : z.recv <;> simp [Cut.state, Cut.recv, hzr] at this ⊢
    have hrd : (s.clRd = .hdr ∨ ∃ r rs, s.clRd = .body (r.bytes.take k.n) 0 ∧ cl'.fromNet = r :: rs ∧ r.owner = some k.c) := by
      rw [hn]; exact h.rd
    rcases fixed_client (ns := ns) hopen hnp hr hcl hst hw hn with hm | hm
    · exact key a (.inl rfl) (hm.trans h.pk) (by simp only [hw]; exact h.up) h.down h.closed hrd
    · have hst2 : Step true l' s.packets.cl ({ s with cl := cl' } : Wired σ).packets.cl := by
        generalize hx : s.packets = x at hm
        generalize hy : ({ s with cl := cl' } : Wired σ).packets = y at hm
        cases hm with
        | client _ cl1 cl2 srv _ h2 => exact h2
        | serve => exact hcl.elim
      obtain ⟨z, hz, hzz⟩ := lift _ l' hcl hst2 hw hn
      refine key ⟨z, a.srv⟩ (.inr ⟨_, hz⟩) ?_ (by simp only [hw]; exact h.up) h.down h.closed hrd
      rw [← hzz, ← e3]
      rfl
  | write _ c t hr hst =>
    have hsa : a.cl.sender = .stored c t := (congrArg (fun x : Sys σ => x.cl.sender) h.pk).symm.trans hst
    refine key ⟨sentOff a.cl c, a.srv⟩ (.inr ⟨.client, .client _ _ _ _ trivial (Step.write a.cl c t hsa)⟩) ?_ ?_ h.down h.closed h.rd
    · have := congrArg (fun x : State => (⟨sentOff x c, s.srv⟩ : Sys σ)) e4
      rw [← e3]
      exact this
    · intro hne
      have := (h.up hne).push (s.cl.buf c)
      simpa [sentOff] using this
  | writeFails _ c t x hr hst hx =>
    have hsa : a.cl.sender = .stored c t := (congrArg (fun x : Sys σ => x.cl.sender) h.pk).symm.trans hst
    refine key ⟨sentOff a.cl c, a.srv⟩ (.inr ⟨.client, .client _ _ _ _ trivial (Step.write a.cl c t hsa)⟩) ?_ ?_ h.down h.closed h.rd
    · have := congrArg (fun x : State => (⟨sentOff x c, s.srv⟩ : Sys σ)) e4
      rw [← e3]
      exact this
    · intro hne
      have := (h.up hne).pushPart hx
      simpa [sentOff] using this
  | srvHdr _ x r hrd hu hx =>
    refine key a (.inl rfl) h.pk (fun _ => ?_) h.down h.closed h.rd
    have := h.up (by rw [hrd]; simp)
    rw [hrd, hu] at this
    exact this.header hx
  | srvShort _ x r hrd hu h0 hx => exact key a (.inl rfl) h.pk (fun hne => absurd rfl hne) h.down rfl h.rd
  | srvEnd _ hrd hu hc => exact key a (.inl rfl) h.pk (fun hne => absurd rfl hne) h.down rfl h.rd
  | srvBody _ got x r n hrd hu h0 hx =>
    refine key a (.inl rfl) h.pk (fun _ => ?_) h.down h.closed h.rd
    have := h.up (by rw [hrd]; simp)
    rw [hrd, hu] at this
    exact this.more hx
  | srvBodyErr _ got n hrd hu hc => exact key a (.inl rfl) h.pk (fun hne => absurd rfl hne) h.down rfl h.rd
  | serve _ got spare srv' b hrd hd =>
    obtain ⟨c, y, h1, h2, a', h3, h4⟩ := cut_serve h hf hrd hd
    refine key a' (.inr ⟨_, h3⟩) (h4 _ rfl rfl) (fun _ => ?_) ?_ h.closed ?_
    · simpa [answered_cons h1] using h2
    · simp [h.closed, h.down]
    · rcases h.rd with hr | ⟨r, rs, hr1, hr2, hr3⟩
      · exact .inl hr
      · exact .inr ⟨r, rs ++ [{ owner := some c, bytes := b.bytes }], hr1, by simp [answered_cons h1, hr2], hr3⟩
  | serveFails _ got spare srv' b x hrd hd hx =>
    obtain ⟨c, y, h1, h2, a', h3, h4⟩ := cut_serve h hf hrd hd
    refine key a' (.inr ⟨_, h3⟩) (h4 _ rfl rfl) (fun hne => absurd rfl hne) ?_ rfl ?_
    · simp [h.closed, h.down]
    · rcases h.rd with hr | ⟨r, rs, hr1, hr2, hr3⟩
      · exact .inl hr
      · exact .inr ⟨r, rs ++ [{ owner := some c, bytes := b.bytes }], hr1, by simp [answered_cons h1, hr2], hr3⟩
  | cutUp _ x y hu =>
    refine key a (.inl rfl) h.pk (fun hne => ?_) h.down h.closed h.rd
    have := h.up hne
    rw [hu] at this
    exact this.cut
  | cutDown _ x y hu =>
    refine key a (.inl rfl) h.pk h.up ?_ rfl h.rd
    rw [h.down] at hu
    exact (List.append_eq_nil_iff.1 hu.symm).1
  | clHdr _ x r hr hi hrd hu hx => exact (hnil x r hu (by omega)).elim
  | clShort _ x r hr hi hrd hu h0 hx => exact (hnil x r hu h0).elim
  | clBody _ got x r n hr hi hrd hu h0 hx => exact (hnil x r hu h0).elim
  | clBodyErr _ got n hr hi hrd hu hc => exact (hbody got n hrd).elim
  | clBodyEOF _ got n hr hi hrd hu hc => exact (hbody got n hrd).elim
  | clEnd _ hr hi hrd hu hc =>
    refine key a (.inl rfl) ?_ h.up h.down h.closed h.rd
    rw [← h.pk]
    simp [Wired.packets, hi, fixReader]
  | clDone _ got hr hi hrd =>
    rcases h.rd with hh | ⟨r, rs, hr1, hr2, hr3⟩
    · rw [hrd] at hh; cases hh
    rw [hrd, Rd.body.injEq] at hr1
    obtain ⟨rfl, -⟩ := hr1
    have hra : a.cl.fromNet = r :: rs := e5.symm.trans hr2
    have hia : k.reader a.cl.reader = .idle := by
      have : fixReader s.cl.reader = k.reader a.cl.reader := congrArg (fun x : Sys σ => x.cl.reader) h.pk
      rw [← this, hi]
      rfl
    have hia : a.cl.reader = .idle := by cases hx : a.cl.reader <;> simp [hx, Cut.reader] at hia ⊢
    refine key ⟨{ a.cl with reader := .holding r, fromNet := rs }, a.srv⟩
      (.inr ⟨.client, .client _ _ _ _ trivial (Step.read a.cl r rs hia hra)⟩) ?_ h.up h.down h.closed (.inl rfl)
    have := congrArg (fun x : State => (⟨{ x with reader := .holding (k.reply r), fromNet := rs }, s.srv⟩ : Sys σ)) e4
    rw [← e3]
    have e6 : received s.cl (r.bytes.take k.n) = { s.cl with reader := .holding (k.reply r), fromNet := rs } := by
      simp [received, hr2, hr3, Cut.reply, Cut.bytes]
    simp only [Wired.packets, e6]
    exact this

/-- the end of file inside of a reply -/
theorem cut_begin {ns : NineServer σ} {x0 : σ} {s : Wired σ} (h : WInv ns x0 s) {got : Bytes} {n : Nat} (hi : s.cl.reader = .idle)
    (hrd : s.clRd = .body got (n + 1)) (hu : s.down = []) (hc : s.downClosed = true) :
    ∃ k, CutInv ns x0 k { s with clRd := .body got 0 } s.packets := by
  have hd := h.down (by rw [hi]; simp)
  rw [hrd, hu] at hd
  obtain ⟨p, qs, h1, h2⟩ := hd.first (net_framed h)
  match hw : s.cl.fromNet, h1 with
  | r :: rs, h1 =>
    simp only [List.map_cons, List.cons.injEq] at h1
    obtain ⟨rfl, rfl⟩ := h1
    obtain ⟨c, q, ho, hq⟩ := h.sys.inv.answered r (by simp only [replies, Wired.packets]; simp [hw])
    have hg : got = r.bytes.take got.length := by
      obtain ⟨y, hy⟩ := hd.pre
      simp only [Rd.got, hw, List.map_cons, List.flatten_cons, List.append_nil] at hy
      have := congrArg (List.take got.length) hy
      rw [List.take_append_of_le_length (Nat.le_refl _), List.take_append_of_le_length (by omega), List.take_length] at this
      exact this
    refine ⟨⟨c, got.length⟩, h.sys, ?_, h.up, (hd.shape _ _ rfl).1, hu, hc, .inr ⟨r, rs, ?_, hw, ho⟩, q, r.bytes, hq, ?_⟩
    · rw [Cut.state_id ⟨c, got.length⟩ h.sys.inv (r := r) (rs := rs) hw ho]
      rfl
    · show Rd.body got 0 = _
      rw [← hg]
    · show got.length < _
      omega

theorem cut_exec {P : TMsg → Prop} {ns : NineServer σ} (hns : Modest P ns) {x0 : σ} {s : Wired σ}
    (he : WExec ns NoTruncReq (Wired.start x0) s) (hf : CallsFit P s.cl) :
    ∃ a, SysExec ns everything ⟨init, ⟨x0, true⟩⟩ a ∧ ((WInv ns x0 s ∧ a = s.packets) ∨ ∃ k, CutInv ns x0 k s a) := by
  generalize hs0 : Wired.start x0 = s0 at he
  induction he with
  | refl =>
    subst hs0
    exact ⟨_, by rw [packets_start]; exact SysExec.refl _, .inl ⟨wired_init ns x0, rfl⟩⟩
  | step b c l he hl hst ih =>
    subst hs0
    have hfr := (wired_fresh_exec (s := Wired.start x0) (fun c _ => rfl) he).1
    have hfa : CallsFit P b.cl := fun c m hm => hf c m ((wired_fresh hfr hst).2 c m hm)
    obtain ⟨a, h1, h2⟩ := ih hfa
    rcases h2 with ⟨h2, rfl⟩ | ⟨k, h2⟩
    · by_cases hlt : l = .trunc
      · subst hlt
        cases hst with
        | clBodyEOF _ got n hr hi hrd hu hc =>
          obtain ⟨k, hk⟩ := cut_begin h2 hi hrd hu hc
          exact ⟨_, h1, .inr ⟨k, hk⟩⟩
      · obtain ⟨g1, g2⟩ := wired_step hns h2 hfa hf hlt hl hst
        refine ⟨c.packets, ?_, .inl ⟨g1, rfl⟩⟩
        rcases g2 with g2 | ⟨l', -, g2⟩
        · rw [g2]; exact h1
        · exact SysExec.step _ _ _ l' h1 trivial h2.sys.open_.recv g2
    · obtain ⟨a', g1, g2⟩ := cut_step hns h2 hfa hf hl hst
      refine ⟨a', ?_, .inr ⟨k, g1⟩⟩
      rcases g2 with rfl | ⟨l', g2⟩
      · exact h1
      · exact SysExec.step _ _ _ l' h1 trivial h2.sys.open_.recv g2

theorem nodup_fst {α β : Type} {l : List (α × β)} (h : (l.map Prod.fst).Nodup) {x : α} {y z : β} (h1 : (x, y) ∈ l) (h2 : (x, z) ∈ l) :
    y = z := by
  induction l with
  | nil => cases h1
  | cons a l ih =>
    rw [List.map_cons, List.nodup_cons] at h
    rcases List.mem_cons.1 h1 with g1 | g1 <;> rcases List.mem_cons.1 h2 with g2 | g2
    · exact (Prod.mk.inj (g1.trans g2.symm)).2
    · subst g1; exact absurd (List.mem_map.2 ⟨_, g2, rfl⟩) h.1
    · subst g2; exact absurd (List.mem_map.2 ⟨_, g1, rfl⟩) h.1
    · exact ih h.2 g1 g2

/-! ### what the caller gets from a reply that has been cut off -/

theorem callRes_cut {R : Type} {dec : Buffer → Unm R} {zero : R} {spare : Bytes} {r : RMsg} {t : Tag} {ctor : R → RMsg} {n : Nat}
    (hdec : ∀ b, decR r b = (dec b).map ctor) (hr : r.Fits) (hty : r.type ≠ 107) (h7 : 7 ≤ n) (hn : n < (r.packet t).length)
    {x : RMsg} (h : (callRes dec zero spare ((r.packet t).take n)).map ctor = .ret x none) : r.slack ((r.packet t).length - n) := by
  have hlen : (r.packet t).length = 5 + (r.body t).length := by
    simp [RMsg.packet, Spec.packet]
    omega
  have e5 : ((r.packet t).take n).drop 5 = (r.body t).take (n - 5) := by
    rw [List.drop_take]
    simp only [RMsg.packet, Spec.packet]
    rw [List.drop_left' (by simp)]
  have e4 : ((r.packet t).take n).getD 4 0 = UInt8.ofNat r.type := by
    rw [getD_take (by omega)]
    simp [RMsg.packet, Spec.packet, le]
    cases r <;> rfl
  have hne : ¬ ((r.packet t).take n).getD 4 0 = MT.Rerror := by
    rw [e4]
    revert hty
    cases r <;> simp [RMsg.type, MT.Rerror] <;> decide
  unfold callRes at h
  rw [if_neg (by simp; omega), if_neg hne, e5] at h
  cases hd : dec ⟨[], (r.body t).take (n - 5), spare⟩ with
  | panic => simp [hd, CallRes.map] at h
  | done p t' e b' =>
    simp only [hd, CallRes.map, CallRes.ret.injEq] at h
    obtain ⟨-, he⟩ := h
    have he : e = none := by cases e <;> simp at he ⊢
    subst he
    have := (lawsR r).trunc hr [] spare t ((r.body t).take (n - 5)) (ctor p) t' b' (List.take_prefix _ _) (by simp; omega)
      (by rw [hdec, hd]; rfl)
    have e : (r.body t).length - ((r.body t).take (n - 5)).length = (r.packet t).length - n := by simp; omega
    rwa [e] at this

/-- A call that has got only the beginning of its reply, and at least the header, returns an error or panics,
unless the reply is not an error and what is missing is in the last field of the reply. -/
theorem C92_cut_reply (m : TMsg) (r : Except GoString RMsg) (hg : GoodRes m r) (t : Tag) (n : Nat) (h7 : 7 ≤ n)
    (hn : n < (asPacket t r).length) (spare : Bytes) (x : RMsg) (h : callT m spare ((asPacket t r).take n) = .ret x none) :
    ∃ r0, r = .ok r0 ∧ r0.slack ((r0.packet t).length - n) := by
  cases r with
  | error e =>
    exfalso
    have e4 : (((RMsg.error ⟨e⟩).packet t).take n).getD 4 0 = MT.Rerror := by
      rw [getD_take (by omega)]
      simp [RMsg.packet, Spec.packet, le, RMsg.type, MT.Rerror]
    have hl : ¬ (((RMsg.error ⟨e⟩).packet t).take n).length < 5 := by
      simp only [asPacket] at hn
      simp
      omega
    simp only [asPacket] at h
    revert h
    cases m <;> simp only [callT, callTversion, callTattach, callTflush, callTwalk, callTopen, callTcreate, callTstat, callTwstat,
      callTclunk, callTremove, callTread, callTwrite, callRes] <;> rw [if_neg hl, if_pos e4] <;>
      (generalize unmarshalRerror _ = u; cases u with
        | panic => simp [CallRes.map]
        | done p t' e' b' => cases e' <;> simp [CallRes.map])
  | ok r =>
    refine ⟨r, rfl, ?_⟩
    obtain ⟨hty, hr⟩ := hg
    simp only [asPacket] at hn h
    cases m <;> cases r <;> simp only [TMsg.type, RMsg.type] at hty <;> first | omega | skip
    all_goals exact callRes_cut (fun _ => rfl) hr (by simp [RMsg.type]) h7 hn h

/-! ### C92 with an end of file inside of a reply -/

/-- **C92, partial**, with an end of file inside of a reply.  Even then the server deals with every request at
most once and in order, and what it does is what calling the methods in this order does; and every call that
has returned, with at most one exception, has returned exactly what its method gave.  The exception, if there
is one, got the first `n` bytes of its reply, at least the header but not all; unless it returned an error (or
panicked) the method gave a result and the missing bytes are in the last field of it.  Missing is the end of file
inside of a request. -/
theorem C92_cut_partial (P : TMsg → Prop) (ns : NineServer σ) (hns : Modest P ns) (x0 : σ) (s : Wired σ)
    (he : WExec ns NoTruncReq (Wired.start x0) s) (hf : CallsFit P s.cl) :
    (served s).Nodup ∧ served s <+: s.cl.written.map Prod.fst ∧
    ∃ ms outs, (served s).map s.cl.msg = ms.map some ∧ runCalls ns ms x0 = some (s.srv.ns, outs) ∧
      ∃ k : Option Nat, ∀ c b, s.cl.phase c = .done b → ∃ (i : Nat) (m : TMsg) (r : Except GoString RMsg), (served s)[i]? = some c ∧
        ms[i]? = some m ∧ outs[i]? = some r ∧
        (some c ≠ k → ∀ spare, callT m spare b = asCall m r) ∧
        (some c = k → ∃ t n, 7 ≤ n ∧ n < (asPacket t r).length ∧ b = (asPacket t r).take n ∧
          ∀ spare x, callT m spare b = .ret x none → ∃ r0, r = .ok r0 ∧ r0.slack ((r0.packet t).length - n)) := by
  obtain ⟨a, h1, h2⟩ := cut_exec hns he hf
  rcases h2 with ⟨-, rfl⟩ | ⟨k, h2⟩
  · obtain ⟨g1, g2, ms, outs, g3, g4, g5⟩ := C36_remote_is_local P ns hns x0 s.packets h1 hf
    refine ⟨g1, g2, ms, outs, g3, g4, none, fun c b hc => ?_⟩
    obtain ⟨i, m, r, k1, k2, k3, k4⟩ := g5 c b hc
    exact ⟨i, m, r, k1, k2, k3, fun _ => k4, nofun⟩
  · have e2 : s.cl.msg = a.cl.msg := congrArg (fun x : Sys σ => x.cl.msg) h2.pk
    have e3 : s.srv = a.srv := congrArg (fun x : Sys σ => x.srv) h2.pk
    have e6 : s.cl.replied = a.cl.replied := congrArg (fun x : Sys σ => x.cl.replied) h2.pk
    have e7 : s.cl.written = a.cl.written := congrArg (fun x : Sys σ => x.cl.written) h2.pk
    have e8 : ∀ c, s.cl.phase c = k.phase c (a.cl.phase c) := fun c => congrArg (fun x : Sys σ => x.cl.phase c) h2.pk
    have hfa : CallsFit P a.cl := by unfold CallsFit; rw [← e2]; exact hf
    have hon : (order a).Nodup := (C36_remote_is_local P ns hns x0 a h1 hfa).1
    have hop := (C36_remote_is_local P ns hns x0 a h1 hfa).2.1
    obtain ⟨h, q1, q2, q3, q4⟩ := h2.sys.hist
    have hord : served s = h.map Entry.call := by
      rw [served, e6, q1]; simp [Function.comp_def, Entry.replied]
    refine ⟨by rw [served, e6]; exact hon, by rw [served, e6, e7]; exact hop, h.map Entry.msg, h.map Entry.out, ?_, by rw [e3]; exact q3,
      some k.c, fun c b hc => ?_⟩
    · rw [hord, List.map_map, List.map_map, e2]
      exact List.map_congr_left fun e he => q2 e he
    · rw [e8] at hc
      cases hp : a.cl.phase c with
      | done b0 =>
        simp only [hp, Cut.phase, Phase.done.injEq] at hc
        obtain ⟨q, hq⟩ := h2.sys.inv.done c b0 hp
        have hq0 := hq
        rw [q1] at hq
        obtain ⟨e, he', heq⟩ := List.mem_map.1 hq
        obtain ⟨i, hi', hie⟩ := List.getElem_of_mem he'
        have hie : h[i]? = some e := by rw [List.getElem?_eq_getElem hi', hie]
        simp only [Entry.replied, Prod.mk.injEq] at heq
        obtain ⟨hec, heq1, heq2⟩ := heq
        have hg := q4 e he'
        refine ⟨i, e.msg, e.out, by rw [hord]; simp [hie, hec], by simp [hie], by simp [hie], fun hk spare => ?_, fun hk => ?_⟩
        · have hb : b = b0 := by
            rw [← hc, Cut.bytes, if_neg]
            exact hk
          rw [hb, ← heq2]
          cases ho : e.out with
          | ok r =>
            rw [ho] at hg
            exact (C35_call_results e.msg spare e.tag).1 r hg.1 hg.2
          | error x =>
            rw [ho] at hg
            exact (C35_call_results e.msg spare e.tag).2 x hg
        · obtain ⟨q', p, w1, w2⟩ := h2.was
          simp only [Option.some.injEq] at hk
          have hpb : p = b0 := by
            rw [← hk] at w1
            have hnd : (a.cl.replied.map Prod.fst).Nodup := hon
            exact (Prod.mk.inj (nodup_fst hnd w1 hq0)).2
          subst hpb
          have hb : b = p.take k.n := by
            rw [← hc, Cut.bytes, if_pos (by rw [hk])]
          rw [← heq2] at hb w2
          exact ⟨e.tag, k.n, h2.seven, w2, hb, fun spare x hx => C92_cut_reply e.msg e.out hg e.tag k.n h2.seven w2 spare x (by rw [← hb]; exact hx)⟩
      | _ => simp [hp, Cut.phase] at hc

/-! ### an end of file inside of a request -/

/-- after the end of file inside of a request -/
structure Last (ns : NineServer σ) (s1 : Wired σ) (got : Bytes) (c : Nat) (q : Bytes) (s : Wired σ) : Prop where
  up : s.up = []
  closed : s.upClosed = true
  now : (s.srvRd = .body got 0 ∧ s.srv = s1.srv ∧ s.cl.replied = s1.cl.replied ∧ ∃ y, s.cl.wire = (c, q) :: y) ∨
    ((s.srvRd = .hdr ∨ s.srvRd = .stopped) ∧ ∃ spare b, dispatch ns s1.srv ⟨[], got.drop 5, spare⟩ (got.getD 4 0) = .done s.srv b ∧
      s.cl.replied = s1.cl.replied ++ [(c, q, b.bytes)])

theorem last_step {ns : NineServer σ} {s1 s s' : Wired σ} {got : Bytes} {c : Nat} {q : Bytes} {l : WLabel} (h : Last ns s1 got c q s)
    (hs : WStep ns l s s') : Last ns s1 got c q s' := by
  obtain ⟨hup, hcl, hnow⟩ := h
  have hnil : ∀ x r : Bytes, s.up = x ++ r → 0 < x.length → False := by
    intro x r hu h0
    rw [hup] at hu
    have := congrArg List.length hu
    simp at this
    omega
  cases hs with
  | client _ l' cl' hr hcs hst hw hn =>
    refine ⟨hup, hcl, ?_⟩
    have hrep : cl'.replied = s.cl.replied := by
      cases hst <;> first | exact hcs.elim | rfl
    rcases hnow with ⟨a1, a2, a3, a4⟩ | ⟨a1, a2⟩
    · exact .inl ⟨a1, a2, hrep.trans a3, by rw [hw]; exact a4⟩
    · exact .inr ⟨a1, by rw [hrep]; exact a2⟩
  | write _ d t hr hst =>
    refine ⟨by simp [hcl, hup], hcl, ?_⟩
    rcases hnow with ⟨a1, a2, a3, y, a4⟩ | ⟨a1, a2⟩
    · exact .inl ⟨a1, a2, a3, y ++ [(d, s.cl.buf d)], by simp [sentOff, a4]⟩
    · exact .inr ⟨a1, a2⟩
  | writeFails _ d t x hr hst hx =>
    refine ⟨by simp [hcl, hup], rfl, ?_⟩
    rcases hnow with ⟨a1, a2, a3, y, a4⟩ | ⟨a1, a2⟩
    · exact .inl ⟨a1, a2, a3, y ++ [(d, s.cl.buf d)], by simp [sentOff, a4]⟩
    · exact .inr ⟨a1, a2⟩
  | srvHdr _ x r hrd hu hx => exact (hnil x r hu (by omega)).elim
  | srvShort _ x r hrd hu h0 hx => exact (hnil x r hu h0).elim
  | srvBody _ g x r n hrd hu h0 hx => exact (hnil x r hu h0).elim
  | srvEnd _ hrd hu hc =>
    refine ⟨hup, hcl, ?_⟩
    rcases hnow with ⟨a1, -⟩ | ⟨a1, a2⟩
    · rw [hrd] at a1; cases a1
    · exact .inr ⟨.inr rfl, a2⟩
  | srvBodyErr _ g n hrd hu hc =>
    rcases hnow with ⟨a1, -⟩ | ⟨a1, -⟩
    · rw [hrd] at a1; simp at a1
    · rcases a1 with a1 | a1 <;> (rw [hrd] at a1; cases a1)
  | srvBodyEOF _ g n hrd hu hc =>
    rcases hnow with ⟨a1, -⟩ | ⟨a1, -⟩
    · rw [hrd] at a1; simp at a1
    · rcases a1 with a1 | a1 <;> (rw [hrd] at a1; cases a1)
  | serve _ g spare srv' b hrd hd =>
    refine ⟨hup, hcl, ?_⟩
    rcases hnow with ⟨a1, a2, a3, y, a4⟩ | ⟨a1, -⟩
    · rw [hrd, Rd.body.injEq] at a1
      obtain ⟨rfl, -⟩ := a1
      exact .inr ⟨.inl rfl, spare, b, by rw [← a2]; exact hd, by simp [answered_cons a4, a3]⟩
    · rcases a1 with a1 | a1 <;> (rw [hrd] at a1; cases a1)
  | serveFails _ g spare srv' b x hrd hd hx =>
    refine ⟨hup, hcl, ?_⟩
    rcases hnow with ⟨a1, a2, a3, y, a4⟩ | ⟨a1, -⟩
    · rw [hrd, Rd.body.injEq] at a1
      obtain ⟨rfl, -⟩ := a1
      exact .inr ⟨.inr rfl, spare, b, by rw [← a2]; exact hd, by simp [answered_cons a4, a3]⟩
    · rcases a1 with a1 | a1 <;> (rw [hrd] at a1; cases a1)
  | cutUp _ x y hu =>
    rw [hup] at hu
    exact ⟨(List.append_eq_nil_iff.1 hu.symm).1, rfl, hnow⟩
  | _ => exact ⟨hup, hcl, hnow⟩

/-- **C92, partial**, with an end of file inside of a request: the server takes the beginning of the request that
has arrived, at least the header but not all, for the whole request, but only once: it is the last request the
server deals with.  Up to it everything is as in `C92_cut_partial`. -/
theorem C92_last_partial (P : TMsg → Prop) (ns : NineServer σ) (hns : Modest P ns) (x0 : σ) (s : Wired σ)
    (he : WExec ns (fun _ => True) (Wired.start x0) s) (hf : CallsFit P s.cl) :
    WExec ns NoTruncReq (Wired.start x0) s ∨
    ∃ s1 got c q, WExec ns NoTruncReq (Wired.start x0) s1 ∧ CallsFit P s1.cl ∧ 7 ≤ got.length ∧ got.length < q.length ∧ got <+: q ∧
      (∃ m t, s.cl.msg c = some m ∧ q = m.packet t) ∧ c ∉ served s1 ∧
      ((s.srv = s1.srv ∧ served s = served s1) ∨
        ∃ spare b, dispatch ns s1.srv ⟨[], got.drop 5, spare⟩ (got.getD 4 0) = .done s.srv b ∧ served s = served s1 ++ [c]) := by
  suffices WExec ns NoTruncReq (Wired.start x0) s ∨ ∃ s1 got c q, WExec ns NoTruncReq (Wired.start x0) s1 ∧ CallsFit P s1.cl ∧ 7 ≤ got.length ∧
      got.length < q.length ∧ got <+: q ∧ (∃ m t, s.cl.msg c = some m ∧ q = m.packet t) ∧ c ∉ served s1 ∧ Last ns s1 got c q s by
    rcases this with h | ⟨s1, got, c, q, h1, h2, h3, h4, h5, h6, h7, h8⟩
    · exact .inl h
    · refine .inr ⟨s1, got, c, q, h1, h2, h3, h4, h5, h6, h7, ?_⟩
      rcases h8.now with ⟨-, a2, a3, -⟩ | ⟨-, spare, b, a2, a3⟩
      · exact .inl ⟨a2, by rw [served, a3]; rfl⟩
      · exact .inr ⟨spare, b, a2, by rw [served, a3]; simp [served]⟩
  generalize hs0 : Wired.start x0 = s0 at he
  induction he with
  | refl => exact .inl (WExec.refl _)
  | step b d l he hl hst ih =>
    subst hs0
    have hfr := (wired_fresh_exec (s := Wired.start x0) (fun c _ => rfl) he).1
    have hmono := (wired_fresh hfr hst).2
    have hfa : CallsFit P b.cl := fun c m hm => hf c m (hmono c m hm)
    rcases ih hfa with h | ⟨s1, got, c, q, h1, h2, h3, h4, h5, ⟨m, t, h6, h6'⟩, h7, h8⟩
    · by_cases hlt : l = .truncReq
      · subst hlt
        right
        cases hst with
        | srvBodyEOF _ got n hrd hu hc =>
          obtain ⟨a, g1, g2⟩ := cut_exec hns h hfa
          have hup : Framed b.srvRd b.up b.upClosed (b.cl.wire.map Prod.snd) := by
            rcases g2 with ⟨g2, -⟩ | ⟨k, g2⟩ <;> exact g2.up (by rw [hrd]; simp)
          have hwf : ∀ p ∈ b.cl.wire.map Prod.snd, p.length = pktLen p := by
            rcases g2 with ⟨g2, -⟩ | ⟨k, g2⟩
            · exact wire_framed g2 hfa
            · exact cut_wire g2 hfa
          have hinv : Inv a.cl ∧ b.cl.wire = a.cl.wire ∧ b.cl.msg = a.cl.msg ∧ b.cl.replied = a.cl.replied := by
            rcases g2 with ⟨g2, rfl⟩ | ⟨k, g2⟩
            · exact ⟨g2.sys.inv, rfl, rfl, rfl⟩
            · exact ⟨g2.sys.inv, congrArg (fun x : Sys σ => x.cl.wire) g2.pk, congrArg (fun x : Sys σ => x.cl.msg) g2.pk,
                congrArg (fun x : Sys σ => x.cl.replied) g2.pk⟩
          obtain ⟨i1, i2, i3, i4⟩ := hinv
          rw [hrd, hu] at hup
          obtain ⟨p, qs, k1, k2⟩ := hup.first hwf
          match hw : b.cl.wire, k1 with
          | (c, q) :: y, k1 =>
            simp only [List.map_cons, List.cons.injEq] at k1
            obtain ⟨rfl, rfl⟩ := k1
            obtain ⟨m, t, -, hm, hq⟩ := i1.wire (c, q) (by rw [← i2, hw]; simp)
            refine ⟨b, got, c, q, h, hfa, (hup.shape _ _ rfl).1, by omega, ?_, ⟨m, t, by simp only [i3]; exact hm, hq⟩, ?_, hu, hc,
              .inl ⟨rfl, rfl, rfl, y, hw⟩⟩
            · have := hup.pre
              simp only [Rd.got, hw, List.map_cons, List.flatten_cons, List.append_nil] at this
              exact List.prefix_of_prefix_length_le this (List.prefix_append _ _) (by omega)
            · have hon := i1.wonce c
              have hle : (a.cl.written.map Prod.fst).count c ≤ 1 := by
                have h1 := i1.wonce c
                have h2 := i1.once c
                have h3 := i1.calls c
                have h4 : (a.cl.wire.map Prod.fst).count c ≤ ((a.cl.wire.map wireFl).map Prod.fst).count (some c) := by
                  have : (a.cl.wire.map wireFl).map Prod.fst = (a.cl.wire.map Prod.fst).map some := by simp [wireFl, Function.comp_def]
                  rw [this]
                  exact List.count_le_count_map
                simp only [allCalls, flights, List.map_append, List.count_append] at h2 h3
                cases hp : a.cl.phase c <;> simp only [hp, Phase.w, Phase.d] at h2 h3 <;> omega
              have hpos : 1 ≤ (a.cl.wire.map Prod.fst).count c := by rw [← i2, hw]; simp
              intro hc'
              rw [served, i4] at hc'
              have := List.count_pos_iff.2 hc'
              omega
      · exact .inl (WExec.step _ _ _ l h hlt hst)
    · exact .inr ⟨s1, got, c, q, h1, h2, h3, h4, h5, ⟨m, t, hmono c m h6, h6'⟩, h7, last_step h8 hst⟩

/-- a file server that adds up the bytes written to it -/
def sumNS : NineServer Nat := { countNS with Rwrite := fun _ _ d n => .ok (d.foldl (fun a b => a + b.toNat) n) (Int32.ofNat d.length) }

theorem sumNS_modest : Modest (fun _ => True) sumNS := by
  intro m x _ hm
  have hc := countNS_modest m x trivial hm
  constructor
  · intro x' r h
    cases m with
    | write p =>
      simp only [call, sumNS, mapRes, NRes.ok.injEq] at h
      obtain ⟨-, rfl⟩ := h
      simp [RMsg.Fits, RMsg.packet, Spec.packet, RMsg.body, RMsg.fields]
    | _ => exact hc.1 x' r h
  · intro x' e h
    cases m with
    | write p => simp [call, sumNS, mapRes] at h
    | _ => exact hc.2 x' e h

/-- a request to `sumNS` -/
def sumReq : Bytes := (TMsg.write ⟨7, 0, [1, 2, 3]⟩).packet 1

/-- what the server makes of the first 24 bytes of the request -/
theorem sum_dispatch : ∃ b : Buffer, b.bytes = (RMsg.write ⟨3⟩).packet 1 ∧
    dispatch sumNS ⟨0, true⟩ ⟨[], (sumReq.take 24).drop 5, [5, 5]⟩ ((sumReq.take 24).getD 4 0) = .done ⟨11, true⟩ b := by
  have h : (match dispatch sumNS ⟨0, true⟩ ⟨[], (sumReq.take 24).drop 5, [5, 5]⟩ ((sumReq.take 24).getD 4 0) with
      | .done x b => some (x.ns, x.Versioned, b.bytes)
      | .panic => none) = some (11, true, (RMsg.write ⟨3⟩).packet 1) := by decide +kernel
  generalize dispatch sumNS ⟨0, true⟩ ⟨[], (sumReq.take 24).drop 5, [5, 5]⟩ ((sumReq.take 24).getD 4 0) = d at h
  cases d with
  | panic => cases h
  | done x b =>
    simp only [Option.some.injEq, Prod.mk.injEq] at h
    obtain ⟨h1, h2, h3⟩ := h
    exact ⟨b, h3, by rw [← h1, ← h2]⟩

/-- a call up to the writing of its request -/
theorem call_written {ns : NineServer σ} {L : WLabel → Prop} (hc : L (.step .call)) (hL : L (.step .client)) (s : Wired σ) (m : TMsg) (t : Tag) (ts : List Tag)
    (h1 : s.cl.phase 0 = .idle) (h2 : s.cl.sending = []) (h3 : s.cl.fromClient = []) (h4 : s.cl.sender = .idle)
    (h5 : s.cl.tags = t :: ts) (h6 : s.cl.reader = .idle) (h7 : s.cl.recv = .idle) (h8 : s.cl.wire = []) (h9 : s.cl.replied = [])
    (k1 : s.up = []) (k2 : s.upClosed = false) (k6 : s.exited = false) (k8 : s.cl.msg = fun _ => none) :
    ∃ s', WExec ns L s s' ∧ s'.cl.phase 0 = .waiting ∧ s'.cl.msg = upd (fun _ => none) 0 (some m) ∧ s'.cl.reader = .idle ∧
      s'.cl.recv = .idle ∧ s'.cl.rpc (t.toNat - 1) = some 0 ∧ s'.cl.replied = [] ∧ s'.clRd = s.clRd ∧ s'.down = s.down ∧
      s'.downClosed = s.downClosed ∧ s'.exited = false ∧ s'.srv = s.srv ∧ s'.up = m.packet t ∧ s'.srvRd = s.srvRd ∧
      s'.cl.wire = [(0, m.packet t)] ∧ s'.cl.fromNet = s.cl.fromNet := by
  have hset : setTag (encodeT {} 0 m).bytes t = m.packet t := by
    rw [C04_wire_layout.1]
    exact setTag_packet m 0 t
  have hr : s.Running := ⟨by simp [Alive, h7], k6⟩
  have e1 := WExec.step (L := L) s s _ _ (WExec.refl _) hc
    (WStep.client (ns := ns) s .call _ hr trivial (Step.call s.cl 0 m h1) rfl rfl)
  have e2 := WExec.step s _ _ _ e1 hL
    (WStep.client _ .client _ hr trivial (Step.enqueue _ [] [] 0 (by simp [h2]) (by simp [h3, NumTags])) rfl rfl)
  have e3 := WExec.step s _ _ _ e2 hL
    (WStep.client _ .client _ hr trivial (Step.takeReq _ 0 [] h4 (by simp [h3])) rfl rfl)
  have e4 := WExec.step s _ _ _ e3 hL
    (WStep.client _ .client _ hr trivial (Step.takeTag _ 0 t ts rfl h5) rfl rfl)
  have e5 := WExec.step s _ _ _ e4 hL
    (WStep.client _ .client _ hr trivial (Step.putTag _ 0 t rfl) rfl rfl)
  have e6 := WExec.step s _ _ _ e5 hL
    (WStep.client _ .client _ hr trivial (Step.store _ 0 t rfl) rfl rfl)
  have e7 := WExec.step s _ _ _ e6 hL (WStep.write _ 0 t hr rfl)
  refine ⟨_, e7, ?_⟩
  simp [sentOff, upd, hset, h6, h7, h8, h9, k1, k2, k6, k8]

/-- **C92 is false** for requests, too: a Twrite of 1, 2, 3 is cut off behind the 1 and the connection ends with an
end of file.  The server calls `Rwrite` with three bytes, two of which never were in the request, and the
caller, who can still be reached, is told that three bytes have been written. -/
theorem C92_counterexample_write : ∃ s b, WExec sumNS (fun l => l ≠ .trunc) (Wired.start 0) s ∧ CallsFit (fun _ => True) s.cl ∧
    served s = [0] ∧ s.cl.msg 0 = some (.write ⟨7, 0, [1, 2, 3]⟩) ∧ s.cl.phase 0 = .done b ∧
    runCalls sumNS [.write ⟨7, 0, [1, 2, 3]⟩] 0 = some (6, [.ok (.write ⟨3⟩)]) ∧ s.srv.ns = 11 ∧
    ∀ spare, callT (.write ⟨7, 0, [1, 2, 3]⟩) spare b = .ret (.write ⟨3⟩) none := by
  obtain ⟨ts, hts⟩ := init_tags
  let m : TMsg := .write ⟨7, 0, [1, 2, 3]⟩
  let q := sumReq
  obtain ⟨s, he, h1, h2, h3, h4, h5, h6, h7, h8, h9, k1, k2, k4, k5, k6, k7⟩ := call_written (ns := sumNS) (L := Smooth) trivial trivial (Wired.start 0) m 1 ts rfl rfl rfl rfl
    hts rfl rfl rfl rfl rfl rfl rfl rfl
  have h7 : s.clRd = .hdr := h7
  have h8 : s.down = [] := h8
  have h9 : s.downClosed = false := h9
  have k2 : s.srv = ⟨0, true⟩ := k2
  have k4 : s.up = q := k4
  have k5 : s.srvRd = .hdr := k5
  have k6 : s.cl.wire = [(0, q)] := k6
  have k7 : s.cl.fromNet = [] := k7
  have hr : s.Running := ⟨by simp [Alive, h4], k1⟩
  have e0 := wexec_weaken (L' := fun l => l ≠ .trunc) (fun l hl => (smooth_noTrunc l hl).1) he
  have e1 := WExec.step _ _ _ _ e0 (by simp) (WStep.cutUp s (q.take 24) (q.drop 24) (by simp [k4]))
  have hz : hdrSize (q.take 7) - 7 = 19 := by decide
  have e2 := WExec.step _ _ _ _ e1 (by simp) (WStep.srvHdr _ (q.take 7) ((q.take 24).drop 7) k5 rfl rfl)
  have e3 := WExec.step _ _ _ _ e2 (by simp) (WStep.srvBody _ (q.take 7) ((q.take 24).drop 7) [] 19 (congrArg (Rd.body _) hz) (by simp) (by decide) (by decide))
  have e4 := WExec.step _ _ _ _ e3 (by simp) (WStep.srvBodyEOF _ (q.take 24) 1 rfl rfl rfl)
  obtain ⟨b, hb, hd⟩ := sum_dispatch
  have e5 := WExec.step _ _ _ _ e4 (by simp) (WStep.serve _ (q.take 24) [5, 5] ⟨11, true⟩ b rfl (by simp only [k2]; exact hd))
  have hw : ∀ x : Wired Nat, x.cl = s.cl → answered x.cl b.bytes = { s.cl with
      wire := []
      fromNet := [{ owner := some 0, bytes := b.bytes }]
      replied := [(0, q, b.bytes)] } := by
    intro x hx
    rw [hx, answered_cons k6]
    simp [k7, h6]
  have ha : answered s.cl b.bytes = { s.cl with
      wire := []
      fromNet := [{ owner := some 0, bytes := b.bytes }]
      replied := [(0, q, b.bytes)] } := hw s rfl
  let p := (RMsg.write ⟨3⟩).packet 1
  have e6 := WExec.step _ _ _ _ e5 (by simp) (WStep.clHdr _ (p.take 7) (p.drop 7) (by simp only [ha]; exact hr) (by simp only [ha]; exact h3) h7
    (by simp [h8, h9, hb, p]) rfl)
  have e7 := WExec.step _ _ _ _ e6 (by simp) (WStep.clBody _ (p.take 7) (p.drop 7) [] 4 (by simp only [ha]; exact hr) (by simp only [ha]; exact h3)
    (congrArg (Rd.body _) (by decide))
    (by simp) (by decide) (by decide))
  obtain ⟨s', g1, g2, g3, g4, g5, -⟩ := call_in (by simp) _ _ 1 p e7 (by simp only [ha]; exact h1) (by simp only [ha]; exact h3)
    (by simp only [ha]; exact h4) (by simp only [ha]; exact h5) rfl k1 (by decide) (by unfold Legal; decide)
  refine ⟨s', p, g1, ?_, ?_, ?_, g2, rfl, ?_, ?_⟩
  · intro c m' hm
    rw [g3] at hm
    simp only [ha, h2, upd] at hm
    split at hm
    · cases hm
      exact ⟨trivial, by simp [m, TMsg.Fits], fun t => by simp [m, TMsg.packet, Spec.packet, TMsg.body, TMsg.fields]⟩
    · cases hm
  · simp [served, g4, ha]
  · simp [g3, ha, h2, upd, m]
  · simp only [g5]
  · intro spare
    exact (C35_call_results m spare 1).1 (.write ⟨3⟩) rfl (by simp [RMsg.Fits])

/-- **C92** A side that neither has lost the connection nor failed to write gives it up only when a read returned a part of a
header: at least one byte and fewer than seven.  The other side's stream is not touched. -/
theorem C92_gives_up {σ : Type} {ns : NineServer σ} {s s' : Wired σ} (h : WStep ns .short s s') :
    (∃ x, 0 < x.length ∧ x.length < 7 ∧ s.up = x ++ s'.up ∧ s'.srvRd = .stopped ∧ s'.down = s.down ∧ s'.cl = s.cl) ∨
    ∃ x, 0 < x.length ∧ x.length < 7 ∧ s.down = x ++ s'.down ∧ s'.cl.reader = .stopped ∧ s'.up = s.up ∧ s'.srvRd = s.srvRd := by
  cases h with
  | srvShort _ x r h1 h2 h3 h4 => exact .inl ⟨x, h3, h4, h2, rfl, rfl, rfl⟩
  | clShort _ x r hr h1 h2 h3 h4 h5 => exact .inr ⟨x, h4, h5, h3, rfl, rfl, rfl⟩

/-- **C92** When a connection has ended, neither reader is left waiting for bytes: as long as the client's reader is not busy with a packet and
has not stopped, it can read on, be it what is still there or the end; and so can the server's. -/
theorem C92_reads_on {σ : Type} (ns : NineServer σ) (s : Wired σ) :
    (s.Running → s.cl.reader = .idle → s.clRd ≠ .stopped → s.downClosed = true →
      ∃ l s', WStep ns l s s' ∧ s'.srvRd = s.srvRd ∧ (s'.clRd ≠ s.clRd ∨ s'.cl.reader ≠ .idle)) ∧
    ((∀ got, s.srvRd ≠ .body got 0) → s.srvRd ≠ .stopped → s.upClosed = true →
      ∃ l s', WStep ns l s s' ∧ s'.cl = s.cl ∧ s'.srv = s.srv ∧ s'.srvRd ≠ s.srvRd) := by
  constructor
  · intro h1 h2 h3 h4
    cases hr : s.clRd with
    | stopped => exact absurd hr h3
    | hdr =>
      by_cases hd : s.down = []
      · exact ⟨_, _, .clEnd s h1 h2 hr hd h4, rfl, .inr nofun⟩
      · by_cases h7 : s.down.length < 7
        · exact ⟨_, _, .clShort s s.down [] h1 h2 hr (by simp) (List.length_pos_iff.2 hd) h7, rfl, .inr nofun⟩
        · exact ⟨_, _, .clHdr s (s.down.take 7) (s.down.drop 7) h1 h2 hr (by simp) (by simp; omega), rfl, .inl (by simp)⟩
    | body got n =>
      cases n with
      | zero => exact ⟨_, _, .clDone s got h1 h2 hr, rfl, .inl (by simp)⟩
      | succ n =>
        cases hd : s.down with
        | nil => exact ⟨_, _, .clBodyErr s got n h1 h2 hr hd h4, rfl, .inr nofun⟩
        | cons a r => exact ⟨_, _, .clBody s got [a] r (n + 1) h1 h2 hr hd (by simp) (by simp), rfl, .inl (by simp)⟩
  · intro h1 h2 h3
    cases hr : s.srvRd with
    | stopped => exact absurd hr h2
    | hdr =>
      by_cases hd : s.up = []
      · exact ⟨_, _, .srvEnd s hr hd h3, rfl, rfl, by simp⟩
      · by_cases h7 : s.up.length < 7
        · exact ⟨_, _, .srvShort s s.up [] hr (by simp) (List.length_pos_iff.2 hd) h7, rfl, rfl, by simp⟩
        · exact ⟨_, _, .srvHdr s (s.up.take 7) (s.up.drop 7) hr (by simp) (by simp; omega), rfl, rfl, by simp⟩
    | body got n =>
      cases n with
      | zero => exact absurd hr (h1 got)
      | succ n =>
        cases hd : s.up with
        | nil => exact ⟨_, _, .srvBodyErr s got n hr hd h3, rfl, rfl, by simp⟩
        | cons a r => exact ⟨_, _, .srvBody s got [a] r (n + 1) hr hd (by simp) (by simp), rfl, rfl, by simp⟩

/-- C92: the client is left with six bytes of a reply -/
example : ∃ l s', WStep dataNS l { Wired.start 0 with down := [1, 2, 3, 4, 5, 6], downClosed := true } s' ∧ s'.cl.reader = .stopped :=
  ⟨_, _, .clShort _ [1, 2, 3, 4, 5, 6] [] ⟨by simp [Alive, Wired.start, init], rfl⟩ rfl rfl rfl (by decide) (by decide), rfl⟩

/-- C92: the server is given six bytes -/
example : ∃ s, WStep dataNS .short { Wired.start 0 with up := [1, 2, 3, 4, 5, 6] } s :=
  ⟨_, .srvShort _ [1, 2, 3, 4, 5, 6] [] rfl rfl (by decide) (by decide)⟩

/-- C92: a reply that has been cut off and goes unnoticed -/
example : GoodRes (.read ⟨7, 0, 3⟩) (.ok (.read ⟨[1, 2, 3]⟩)) ∧ 7 ≤ 12 ∧ 12 < (asPacket 1 (.ok (.read ⟨[1, 2, 3]⟩))).length ∧
    callT (.read ⟨7, 0, 3⟩) [5, 5] ((asPacket 1 (.ok (.read ⟨[1, 2, 3]⟩))).take 12) = .ret (.read ⟨[1, 5, 5]⟩) none := by
  refine ⟨⟨rfl, by simp [RMsg.Fits]⟩, by decide, by decide, ?_⟩
  have := C92_cut_read ⟨7, 0, 3⟩ [1, 2, 3] [5, 5] 1 1 (by decide) (by decide)
  rw [if_pos (by decide)] at this
  exact this

/-- C92: an execution with an end of file inside of a reply -/
example : ∃ s b, WExec dataNS NoTruncReq (Wired.start 0) s ∧ CallsFit (fun _ => True) s.cl ∧ s.cl.phase 0 = .done b := by
  obtain ⟨s, b, h1, h2, -, -, h3, -⟩ := C92_counterexample
  exact ⟨s, b, h1, h2, h3⟩

/-- C92: an execution with an end of file inside of a request -/
example : ∃ s, WExec sumNS (fun _ => True) (Wired.start 0) s ∧ CallsFit (fun _ => True) s.cl ∧ s.srv.ns = 11 := by
  obtain ⟨s, b, h1, h2, -, -, -, -, h3, -⟩ := C92_counterexample_write
  exact ⟨s, wexec_weaken (fun _ _ => trivial) h1, h2, h3⟩

end Ninep.Client

namespace Ninep.Ufs
open Spec
variable {ω H : Type} {host : Host ω H} {user : GoString}

open Client in
/-- **C92, partial** for this file server, with an end of file inside of a reply. -/
theorem C92_stack_cut_partial (hh : host.Short) (hu : user.length < 2 ^ 13) (root : GoString) (w : ω) (s : Wired (State ω H))
    (he : WExec (ufs host user) NoTruncReq (Wired.start (newFS root w)) s) (hf : CallsFit Ordinary s.cl) :
    (served s).Nodup ∧ served s <+: s.cl.written.map Prod.fst ∧
    ∃ ms outs, (served s).map s.cl.msg = ms.map some ∧ runCalls (ufs host user) ms (newFS root w) = some (s.srv.ns, outs) ∧
      ∃ k : Option Nat, ∀ c b, s.cl.phase c = .done b → ∃ (i : Nat) (m : TMsg) (r : Except GoString RMsg), (served s)[i]? = some c ∧
        ms[i]? = some m ∧ outs[i]? = some r ∧
        (some c ≠ k → ∀ spare, callT m spare b = asCall m r) ∧
        (some c = k → ∃ t n, 7 ≤ n ∧ n < (asPacket t r).length ∧ b = (asPacket t r).take n ∧
          ∀ spare x, callT m spare b = .ret x none → ∃ r0, r = .ok r0 ∧ r0.slack ((r0.packet t).length - n)) :=
  C92_cut_partial Ordinary _ (ufs_modest hh hu) _ s he hf

end Ninep.Ufs
