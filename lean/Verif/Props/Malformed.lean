import Verif.Lemmas.Layout
import Verif.Props.Process
import Verif.Props.CodecPanic
/-
C108: what the server makes of a packet whose bytes are not a message.  The decoders go on after some kinds of error, and
the server does not look at the error of a decoder (e.g. genout.go:160-176), so such packets do reach the file server.
-/

namespace Ninep
open Spec Dec

variable {σ : Type}

/-! ### the specification is not too weak: from a proper request only that request is made -/

theorem front_num (n v : Nat) (r : Bytes) : (Kind.num n).front (le n v ++ r) = some (le n v, r) := by
  simp [Kind.front]

theorem front_data (n : Nat) (s r : Bytes) (h : s.length < 2 ^ (8 * n)) :
    (Kind.data n).front (le n s.length ++ s ++ r) = some (le n s.length ++ s, r) := by
  have hv : leVal (le n s.length) = s.length := by
    rw [leVal_le]
    refine Nat.mod_eq_of_lt ?_
    rwa [show (256 : Nat) = 2 ^ 8 from rfl, ← Nat.pow_mul]
  have ht : (le n s.length ++ s ++ r).take n = le n s.length := by simp
  simp only [Kind.front, ht, hv]
  have hlen : n + s.length = (le n s.length ++ s).length := by simp
  rw [if_pos (by simp), hlen, List.take_left, List.drop_left]

theorem front_str (s r : Bytes) (h : s.length < 2 ^ 16) : Kind.str.front (str s ++ r) = some (str s, r) := by
  have := front_data 2 s r h
  simpa [Kind.front, str] using this

theorem wholes_strs (l : List GoString) (h : ∀ s ∈ l, s.length < 2 ^ 16) (r : Bytes) :
    (Layout.strs l.length).wholes ((l.map str).flatten ++ r) = (l.map str, r, none) := by
  induction l with
  | nil => rfl
  | cons s l ih =>
    have := front_str s ((l.map str).flatten ++ r) (h s (by simp))
    simp only [List.length_cons, Layout.strs, List.map_cons, List.flatten_cons, List.append_assoc, Layout.wholes]
    rw [this]
    simp only
    rw [ih fun x hx => h x (by simp [hx])]

theorem wholes_fields (m : TMsg) (hm : m.Fits) (r : Bytes) : m.layout.wholes (m.fields ++ r) = (m.parts, r, none) := by
  cases m with
  | walk p =>
    have h3 : leVal (le 2 p.Paths.length) = p.Paths.length := by
      rw [leVal_le]; exact Nat.mod_eq_of_lt (by have := hm.1; omega)
    have := wholes_strs p.Paths hm.2 r
    simp only [TMsg.layout, TMsg.fields, TMsg.parts, Layout.wholes, List.append_assoc, front_num, h3, this]
  | attach p =>
    have h1 := fun r => front_str p.Uname r hm.1
    have h2 := fun r => front_str p.Aname r hm.2
    simp [TMsg.layout, TMsg.fields, TMsg.parts, Layout.of, Layout.wholes, List.append_assoc, front_num, h1, h2]
  | version p =>
    have h1 := fun r => front_str p.TVersion r hm
    simp [TMsg.layout, TMsg.fields, TMsg.parts, Layout.of, Layout.wholes, List.append_assoc, front_num, h1]
  | create p =>
    have h1 := fun r => front_str p.Name r hm
    simp [TMsg.layout, TMsg.fields, TMsg.parts, Layout.of, Layout.wholes, List.append_assoc, front_num, h1]
  | write p =>
    have h1 := front_data 4 p.Data r hm
    simp only [List.append_assoc] at h1
    simp [TMsg.layout, TMsg.fields, TMsg.parts, Layout.of, Layout.wholes, List.append_assoc, front_num, h1]
  | wstat p =>
    have h1 := front_data 2 p.B r hm
    simp only [List.append_assoc] at h1
    simp [TMsg.layout, TMsg.fields, TMsg.parts, Layout.of, Layout.wholes, List.append_assoc, front_num, h1]
  | _ => simp [TMsg.layout, TMsg.fields, TMsg.parts, Layout.of, Layout.wholes, List.append_assoc, front_num]

theorem same_type {m m0 : TMsg} (h : m.type = m0.type) : m.layout = m0.layout ∧ decT m = decT m0 := by
  cases m <;> cases m0 <;> first | exact ⟨rfl, rfl⟩ | (simp [TMsg.type] at h)

/-- **C108**, the specification: of a request, whether or not something is behind it, only the request itself is made. -/
theorem C108_proper {m m0 : TMsg} {r : Bytes} (h0 : m0.Fits) (ht : m.type = m0.type) (h : MadeOf m (m0.fields ++ r)) : m = m0 := by
  obtain ⟨hl, hd⟩ := same_type ht
  have hw := h.whole
  rw [hl, wholes_fields m0 h0 r] at hw
  have hp : m.body 0 = m0.body 0 ++ (m.parts.drop m0.parts.length).flatten := by
    simp only [TMsg.body, ← TMsg.parts_flatten, List.append_assoc]
    congr 1
    conv => lhs; rw [← List.take_append_drop m0.parts.length m.parts, hw, List.flatten_append]
  have h1 := (lawsT m).fwd h.fits [] [] 0
  rw [hd, hp] at h1
  by_cases he : (m.parts.drop m0.parts.length).flatten = []
  · rw [he, List.append_nil, (lawsT m0).fwd h0] at h1
    simp only [Unm.done.injEq] at h1
    exact h1.1.symm
  · rw [(lawsT m0).trail h0 _ _ _ _ he] at h1
    simp only [Unm.done.injEq] at h1
    exact h1.1.symm

/-! ### a packet -/

theorem le_tagOf_take {b : Bytes} (h : 2 ≤ b.length) : b = le 2 (tagOf b).toNat ++ b.drop 2 := by
  match b, h with
  | x :: y :: r, _ => rw [le_tagOf]; rfl

/-- **C108** A packet of a type that the server knows, with a tag and any bytes whatsoever behind it, either contains a
count that goes beyond the packet and the memory behind it (C11: the program ends), or there is a request `m` that fits
on the wire, made of the fields as far as they are there, such that every file server in every state does what it does
for `m` and the client gets the reply to `m`, under the tag of the packet. -/
theorem C108_acts (m0 : TMsg) (pre body spare : Bytes) (hb : 2 ≤ body.length) :
    ((∃ pos w, payloadAt (.inl m0) = some (pos, w) ∧ pos < body.length ∧
        body.length - (pos + w) + spare.length < payloadCount (.inl m0) body) ∧
      ∀ (σ : Type) (ns : NineServer σ) (s : Server σ), s.Versioned = true ∨ m0.ty = MT.Tversion →
        dispatch ns s ⟨pre, body, spare⟩ m0.ty = .panic) ∨
    ∃ m, m.type = m0.type ∧ MadeOf m (body.drop 2) ∧
      ∀ (σ : Type) (ns : NineServer σ) (x : σ) (v : Bool), v = true ∨ m0.ty = MT.Tversion →
        match answer ns (tagOf body) m x with
        | none => dispatch ns ⟨x, v⟩ ⟨pre, body, spare⟩ m0.ty = .panic
        | some (x', p) => ∃ b', dispatch ns ⟨x, v⟩ ⟨pre, body, spare⟩ m0.ty = .done ⟨x', true⟩ b' ∧ b'.bytes = p := by
  cases hd : decT m0 ⟨pre, body, spare⟩ with
  | panic =>
    left
    refine ⟨(C11_panic_iff (.inl m0) ⟨pre, body, spare⟩).1 (by simp [decAny, hd, Unm.map]), fun σ ns s hv => ?_⟩
    rw [dispatch_request ns m0 s _ hv, hd]
    rfl
  | done m t e b1 =>
    right
    rw [le_tagOf_take hb] at hd
    obtain ⟨rfl, hty, hm⟩ := decT_madeOf m0 _ _ _ _ hd
    rw [← le_tagOf_take hb] at hd
    refine ⟨m, hty, hm, fun σ ns x v hv => ?_⟩
    rw [dispatch_request ns m0 ⟨x, v⟩ _ hv, hd]
    unfold handle answer
    dsimp only
    cases call ns m x with
    | panic => rfl
    | ok x' r => exact ⟨_, rfl, encodeR_bytes _ _ _⟩
    | err x' e => exact ⟨_, rfl, encodeR_bytes _ _ _⟩

/-- a Tclunk with half a fid is a Tclunk of the fid 5; the rest of the fid and the path of this Twalk are zero -/
example : MadeOf (.clunk ⟨5⟩) [5, 0] ∧ MadeOf (.walk { SFID := 1, NewFID := 2, Paths := [[97], [], []] }) [1, 0, 0, 0, 2, 0, 0, 0, 3, 0, 1, 0, 97, 9, 0, 98] ∧
    ¬ MadeOf (.clunk ⟨6⟩) [5, 0] ∧ ¬ MadeOf (.clunk ⟨5⟩) [] := by
  refine ⟨⟨by simp [TMsg.Fits], by decide, ?_, by decide, by decide, by decide⟩, ⟨by simp [TMsg.Fits], by decide, ?_, by decide, by decide, by decide⟩, ?_, ?_⟩
  · intro k hk _; exact (by decide : [5, 0] <+: (le 4 5))
  · intro k hk hs
    have : (some .str : Option Kind) = some k := hk
    cases this
    exact absurd rfl hs
  · intro h
    have := h.cut (.num 4) (by decide) (by decide)
    revert this
    decide
  · intro h
    have := h.none (by decide) 5 (by decide)
    revert this
    decide

/-- the hypotheses of `C108_proper` and `C108_acts` -/
example : (TMsg.clunk ⟨5⟩).Fits ∧ MadeOf (.clunk ⟨5⟩) ((TMsg.clunk ⟨5⟩).fields ++ [1, 2]) ∧ 2 ≤ ([1, 0, 5, 0] : Bytes).length := by
  refine ⟨by simp [TMsg.Fits], ⟨by simp [TMsg.Fits], by decide, ?_, by decide, by decide, by decide⟩, by decide⟩
  intro k hk
  have : (none : Option Kind) = some k := hk
  cases this

/-! ### a connection -/

/-- the type of a packet -/
def typeField (g : Bytes) : MType := g.getD 4 0

/-- What has become of packets of arbitrary bytes, worked on by a file server one after the other, beginning with the
state `s0`: the requests that were made of them, the replies, whether there has been a Tversion, and the state. -/
inductive Heard (ns : NineServer σ) (s0 : σ) : List Bytes → List (Tag × TMsg) → List Bytes → Bool → σ → Prop
  | nil : Heard ns s0 [] [] [] false s0
  /-- an unknown type, or a request before a Tversion: an error, and the file server is not asked -/
  | refused {gs ms ps v s} (g : Bytes) (e : GoString) : Heard ns s0 gs ms ps v s →
      ((typeField g).toNat ∉ requestTypes ∨ (v = false ∧ typeField g ≠ MT.Tversion)) →
      Heard ns s0 (gs ++ [g]) ms (ps ++ [(RMsg.error ⟨e⟩).packet (tagOf (g.drop 5))]) v s
  | request {gs ms ps v s s' p} (g : Bytes) (m : TMsg) : Heard ns s0 gs ms ps v s →
      (v = true ∨ typeField g = MT.Tversion) → m.ty = typeField g → MadeOf m (g.drop 7) →
      answer ns (tagOf (g.drop 5)) m s = some (s', p) →
      Heard ns s0 (gs ++ [g]) (ms ++ [(tagOf (g.drop 5), m)]) (ps ++ [p]) true s'

/-- **C108** The requests that were made are well formed, and served one after the other, without the packets that were
refused, they leave the same state and have the same replies. -/
theorem C108_requests {ns : NineServer σ} {s0 s : σ} {gs : List Bytes} {ms : List (Tag × TMsg)} {ps : List Bytes} {v : Bool}
    (h : Heard ns s0 gs ms ps v s) : (∀ r ∈ ms, r.2.Fits) ∧ ∃ qs, qs.Sublist ps ∧ answers ns ms s0 = some (s, qs) := by
  induction h with
  | nil => exact ⟨nofun, [], List.Sublist.refl _, rfl⟩
  | refused g e _ _ ih =>
    obtain ⟨h1, qs, h2, h3⟩ := ih
    exact ⟨h1, qs, h2.trans (List.sublist_append_left _ _), h3⟩
  | @request gs ms ps v s s' p g m _ _ _ hm ha ih =>
    obtain ⟨h1, qs, h2, h3⟩ := ih
    refine ⟨fun r hr => ?_, qs ++ [p], h2.append (List.Sublist.refl _), Ufs.answers_snoc _ _ _ _ _ _ _ _ _ h3 ha⟩
    rcases List.mem_append.1 hr with hr | hr
    · exact h1 r hr
    · rw [List.mem_singleton.1 hr]; exact hm.fits

end Ninep

namespace Ninep.Ufs
open Spec

variable {ω H : Type} {host : Host ω H} {user rootPath : GoString}

theorem worked_heard {h : List (Job H)} {o : Obj H} {v : Bool} (hw : Worked user rootPath h o v) (hl : ∀ j ∈ h, 7 ≤ j.got.length)
    (rest : List (Ev H)) :
    ∃ ms, Heard (ufs (scripted H) user) (newFS rootPath ⟨h.flatMap (·.evs) ++ rest, []⟩) (h.map (·.got)) ms (h.map (·.reply)) v
      (o.into ⟨rest, h.flatMap (·.evs)⟩) := by
  induction hw generalizing rest with
  | nil => exact ⟨[], .nil⟩
  | @snoc h o v o' v' b j hw hp hrep ih =>
    obtain ⟨ms, hh⟩ := ih (fun x hx => hl x (by simp [hx])) (j.evs ++ rest)
    have hj := hl j (by simp)
    have h2 : 2 ≤ (j.got.drop 5).length := by simp; omega
    have hd := run_dispatch (scripted H) user (o.into ⟨j.evs ++ rest, h.flatMap (·.evs)⟩) v ⟨[], j.got.drop 5, j.spare⟩ (j.got.getD 4 0)
    rw [into_obj, show (o.into (⟨j.evs ++ rest, h.flatMap (·.evs)⟩ : Script H)).world = ⟨j.evs ++ rest, h.flatMap (·.evs)⟩ from rfl,
      hp.replay rfl] at hd
    simp only [List.map_append, List.map_cons, List.map_nil, List.flatMap_append, List.flatMap_cons, List.flatMap_nil, List.append_nil,
      List.append_assoc]
    have refuse (e : GoString) (b1 : Buffer)
        (hx : dispatch (ufs (scripted H) user) ⟨o.into ⟨j.evs ++ rest, h.flatMap (·.evs)⟩, v⟩ ⟨[], j.got.drop 5, j.spare⟩ (j.got.getD 4 0) =
          .done ⟨o.into ⟨j.evs ++ rest, h.flatMap (·.evs)⟩, v⟩ (encodeR b1 (tagOf (j.got.drop 5)) (.error ⟨e⟩)))
        (hc : (typeField j.got).toNat ∉ requestTypes ∨ (v = false ∧ typeField j.got ≠ MT.Tversion)) :
        ∃ ms, Heard (ufs (scripted H) user) (newFS rootPath ⟨h.flatMap (·.evs) ++ (j.evs ++ rest), []⟩) (h.map (·.got) ++ [j.got]) ms
          (h.map (·.reply) ++ [j.reply]) v' (o'.into ⟨rest, h.flatMap (·.evs) ++ j.evs⟩) := by
      rw [hx] at hd
      simp only [toDisp, DispRes.done.injEq, Server.mk.injEq] at hd
      obtain ⟨⟨hs, rfl⟩, hb⟩ := hd
      rw [← hs, hrep, ← hb, encodeR_bytes]
      exact ⟨ms, .refused j.got e hh hc⟩
    by_cases hv : v = true ∨ typeField j.got = MT.Tversion
    · by_cases ht : (typeField j.got).toNat ∈ requestTypes
      · obtain ⟨m0, hm0⟩ := ty_of_mem ht
        rw [← hm0] at hv
        have hty : j.got.getD 4 0 = m0.ty := hm0.symm
        rw [hty] at hd
        rcases C108_acts m0 [] (j.got.drop 5) j.spare h2 with ⟨-, hx⟩ | ⟨m, hm1, hm2, hx⟩
        · rw [hx _ _ _ hv] at hd
          cases hd
        · have := hx _ (ufs (scripted H) user) (o.into ⟨j.evs ++ rest, h.flatMap (·.evs)⟩) v hv
          rw [List.drop_drop] at hm2
          cases ha : answer (ufs (scripted H) user) (tagOf (j.got.drop 5)) m (o.into ⟨j.evs ++ rest, h.flatMap (·.evs)⟩) with
          | none =>
            rw [ha] at this
            rw [this] at hd
            cases hd
          | some y =>
            obtain ⟨x', p⟩ := y
            rw [ha] at this
            obtain ⟨b', h3, h4⟩ := this
            rw [h3] at hd
            simp only [toDisp, DispRes.done.injEq, Server.mk.injEq] at hd
            obtain ⟨⟨rfl, rfl⟩, rfl⟩ := hd
            rw [hrep, h4]
            have hmt : m.ty = typeField j.got := by rw [← hm0]; simp [TMsg.ty, hm1]
            exact ⟨_, .request j.got m hh (by rw [← hm0]; exact hv) hmt hm2 ha⟩
      · cases hv' : v with
        | true =>
          subst hv'
          exact refuse _ _ (dispatch_unsupported _ _ _ _ rfl ht h2) (.inl ht)
        | false =>
          subst hv'
          have hne : typeField j.got ≠ MT.Tversion := by intro h; rw [h] at ht; exact ht (by decide)
          exact refuse _ _ (dispatch_unversioned _ _ _ _ rfl hne h2) (.inl ht)
    · have hv1 : v = false := by cases v <;> simp_all
      subst hv1
      have hne : typeField j.got ≠ MT.Tversion := fun h => hv (.inr h)
      exact refuse _ _ (dispatch_unversioned _ _ _ _ rfl hne h2) (.inr ⟨rfl, hne⟩)

/-- every packet taken has at least seven bytes -/
theorem taken_seven {w0 : ω} {ls : List (DLabel ω H)} {d : Daemon ω H} (hr : DRun host user rootPath w0 ls d)
    {i : Nat} {c : PConn H} (hc : d.conns[i]? = some c) : ∀ g ∈ taken i ls, 7 ≤ g.length := by
  have hw : ∀ g, Whole g → 7 ≤ g.length := fun g hg => by unfold Whole pktLen at hg; omega
  rcases ((drun_inv hr).conn i c hc).frame with ⟨-, h, -⟩ | ⟨_, _, -, h, -⟩ | ⟨-, h, -⟩ | ⟨-, pre, g, h1, h2, -, -, -, h3, -⟩
  · exact fun g hg => hw g (h g hg)
  · exact fun g hg => hw g (h g hg)
  · exact fun g hg => hw g (h g hg)
  · intro x hx
    rw [taken] at hx
    rw [h1] at hx
    rcases List.mem_append.1 hx with hx | hx
    · exact hw x (h2 x hx)
    · rw [List.mem_singleton.1 hx]; exact h3

/-- **C108**, the program: whatever bytes a client sends, the packets that are cut out of them are refused or act as
well-formed requests.  With the answers of the operating system as they were (`made`), the file server working on these
requests one after the other gives exactly the replies the server has written (but for the last one if writing it has
failed), and leaves exactly the table of fids that the connection has. -/
theorem C108_program {w0 : ω} {ls : List (DLabel ω H)} {d : Daemon ω H} (hr : DRun host user rootPath w0 ls d)
    {i : Nat} {c : PConn H} (hc : d.conns[i]? = some c) (hrun : c.thr.running = none) :
    ∃ ms outs, Heard (ufs (scripted H) user) (newFS rootPath ⟨made i ls, []⟩) (taken i ls) ms outs c.thr.Versioned
        (c.thr.obj.into ⟨[], made i ls⟩) ∧
      (c.thr.out = outs ∨ (c.thr.dead = true ∧ c.thr.out = outs.dropLast)) := by
  have h7 := taken_seven hr hc
  obtain ⟨h, evs, hw, hcs, hm⟩ := ((drun_inv hr).conn i c hc).work
  rw [hrun] at hm
  obtain ⟨hm1, rfl, hm2⟩ := hm
  have hgot : h.map (·.got) = taken i ls := by rw [taken, hm1]; simp
  rw [List.append_nil] at hcs
  obtain ⟨ms, hh⟩ := worked_heard hw (fun j hj => h7 j.got (by rw [← hgot]; exact List.mem_map.2 ⟨j, hj, rfl⟩)) []
  rw [List.append_nil, ← hcs, hgot] at hh
  exact ⟨ms, _, hh, hm2.imp id fun x => ⟨x.1, x.2.2⟩⟩

/-- the hypotheses of `C108_program`, for a packet that is no request: a Tversion with three bytes of the message size
and without a version -/
example (host : Host ω H) (user rootPath : GoString) (w0 : ω) : ∃ ls d c, DRun host user rootPath w0 ls d ∧
    d.conns[0]? = some c ∧ c.thr.running = none ∧ taken 0 ls = [[10, 0, 0, 0, 100, 1, 0, 0, 32, 0]] ∧
    c.thr.out = [(RMsg.error ⟨lit " not supported; only 9P2000"⟩).packet 1] := by
  obtain ⟨ls, d, hr, hn, hj, hc⟩ := daemon_fresh host user rootPath w0
  obtain ⟨ls, d, hr, hn, hj', hc⟩ := daemon_next hr hn hc ⟨rfl, rfl⟩ rfl rfl rfl [10, 0, 0, 0, 100, 1, 0, 0, 32, 0] [] (by decide) (by decide)
  have hlen : 0 < d.conns.length := (List.getElem?_eq_some_iff.1 hc).1
  have h2 := hr.step hn (.reply (i := 0) true hc rfl)
  refine ⟨_, _, _, h2, List.getElem?_set_self hlen, rfl, ?_, ?_⟩
  · rw [taken, jobs_append, hj', hj]
    rfl
  · rfl

end Ninep.Ufs
