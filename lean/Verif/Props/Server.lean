import Verif.Lemmas.Stream

set_option linter.unusedSimpArgs false
set_option linter.unusedVariables false

/-
Properties C14–C22 and C24 of the server: `Dispatch` and the per-connection loop.
-/

namespace Ninep
open Spec Dec

section
variable {σ : Type}

/-! ### C14 one reply per request -/

/-- `r` is a reply to a packet of type `t` with the bytes `body` behind the type: correct size field, the
same tag bytes, type `t + 1` or Rerror. -/
def IsReply (t : MType) (body r : Bytes) : Prop :=
  leVal (r.take 4) = r.length % 2 ^ 32 ∧ (r[4]? = some (t + 1) ∨ r[4]? = some 107) ∧
  (r.drop 5).take 2 = body.take 2

theorem packet_isReply {t : MType} {body : Bytes} (h : 2 ≤ body.length) (r : RMsg)
    (hr : r.ty = t + 1 ∨ r.ty = 107) : IsReply t body (r.packet (tagOf body)) := by
  match body, h with
  | a :: b :: rest, _ =>
    have hl := le_tagOf a b rest
    refine ⟨?_, ?_, ?_⟩
    · simp only [RMsg.packet, Spec.packet, RMsg.body]
      rw [List.append_assoc, List.take_append_of_le_length (by simp), List.take_of_length_le (by simp), leVal_le]
      congr 1
      simp; omega
    · have h4 : (r.packet (tagOf (a :: b :: rest)))[4]? = some r.ty := by
        simp [RMsg.packet, Spec.packet, le, RMsg.ty, u8_ofNat_mod]
      rw [h4]
      simpa using hr
    · simp only [RMsg.packet, Spec.packet, RMsg.body, hl]
      simp [List.drop_append, List.drop_of_length_le]

theorem encodeR_bytes (b : Buffer) (t : Tag) (r : RMsg) : (encodeR b t r).bytes = r.packet t := by
  rw [encodeR_eq]; rfl

theorem handle_done {ns : NineServer σ} {s s' : Server σ} {u : Unm TMsg} {b' : Buffer}
    (h : handle ns s u = .done s' b') :
    ∃ m t e b r, u = .done m t e b ∧ b' = encodeR b t r ∧ s'.Versioned = s.Versioned ∧
      (call ns m s.ns = .ok s'.ns r ∨ ∃ x, call ns m s.ns = .err s'.ns x ∧ r = .error ⟨x⟩) := by
  cases u with
  | panic => cases h
  | done m t e b =>
    unfold handle at h
    cases hc : call ns m s.ns with
    | panic => simp [hc] at h
    | ok s1 r =>
      simp only [hc, DispRes.done.injEq] at h
      obtain ⟨rfl, rfl⟩ := h
      exact ⟨m, t, e, b, r, rfl, rfl, rfl, .inl hc⟩
    | err s1 x =>
      simp only [hc, DispRes.done.injEq] at h
      obtain ⟨rfl, rfl⟩ := h
      exact ⟨m, t, e, b, .error ⟨x⟩, rfl, rfl, rfl, .inr ⟨x, hc, rfl⟩⟩

theorem dispatch_isReply (ns : NineServer σ) (s s' : Server σ) (b b' : Buffer) (t : MType)
    (hb : 2 ≤ b.unread.length) (h : dispatch ns s b t = .done s' b') : IsReply t b.unread b'.bytes := by
  rcases dispatch_cases ns s b t hb with ⟨-, -, e, h1⟩ | ⟨-, m, rfl, h1⟩ | ⟨-, -, e, b1, h1⟩
  · rw [h1] at h
    cases h
    rw [encodeR_bytes]
    exact packet_isReply hb _ (.inr rfl)
  · rw [h1] at h
    obtain ⟨m', tg, e, b1, r, hu, rfl, -, hc⟩ := handle_done h
    rw [encodeR_bytes, (decT_keeps m hu).2 hb]
    refine packet_isReply hb _ ?_
    rcases hc with hc | ⟨x, -, rfl⟩
    · left
      have h1 := call_type ns m' _ _ _ hc
      have h2 : m'.ty = m.ty := decT_ty m hu
      rw [← h2]
      simp only [RMsg.ty, TMsg.ty, h1, UInt8.ofNat_add]
      rfl
    · right; rfl
  · rw [h1] at h
    cases h
    rw [encodeR_bytes]
    exact packet_isReply hb _ (.inr rfl)

/-- `process` with its parts named, for inductions -/
theorem process_cons (ns : NineServer σ) (spare : Nat → Bytes) (wfail : Nat → Bool) (k : Nat) (s : Server σ)
    (t : MType) (w : Bytes) (rs : List (MType × Bytes)) (e : Stop) :
    (dispatch ns s ⟨[], w, spare k⟩ t = .panic ∧
      process ns spare wfail k s ((t, w) :: rs) e = ⟨[(t, w)], [], s, .panic⟩) ∨
    ∃ s' b', dispatch ns s ⟨[], w, spare k⟩ t = .done s' b' ∧
      ((wfail k = true ∧ process ns spare wfail k s ((t, w) :: rs) e = ⟨[(t, w)], [], s', .write⟩) ∨
       (wfail k = false ∧ process ns spare wfail k s ((t, w) :: rs) e =
        ⟨(t, w) :: (process ns spare wfail (k + 1) s' rs e).execd,
         b'.bytes :: (process ns spare wfail (k + 1) s' rs e).out,
         (process ns spare wfail (k + 1) s' rs e).srv, (process ns spare wfail (k + 1) s' rs e).stop⟩)) := by
  simp only [process]
  cases dispatch ns s ⟨[], w, spare k⟩ t with
  | panic => left; exact ⟨rfl, rfl⟩
  | done s' b' =>
    right
    refine ⟨s', b', rfl, ?_⟩
    cases wfail k
    · right; exact ⟨rfl, rfl⟩
    · left; exact ⟨rfl, rfl⟩

theorem process_replies (ns : NineServer σ) (spare : Nat → Bytes) (wfail : Nat → Bool)
    (rs : List (MType × Bytes)) (hrs : ∀ p ∈ rs, 2 ≤ p.2.length) (e : Stop) (he : e = .header ∨ e = .body)
    (k : Nat) (s : Server σ) :
    let r := process ns spare wfail k s rs e
    r.execd.length = r.out.length + (if r.stop = .header ∨ r.stop = .body then 0 else 1) ∧
    ∀ (i : Nat) (p : MType × Bytes) (o : Bytes), r.execd[i]? = some p → r.out[i]? = some o → IsReply p.1 p.2 o := by
  induction rs generalizing k s with
  | nil =>
    simp only [process]
    refine ⟨by simp [he], by simp⟩
  | cons p rs ih =>
    obtain ⟨t, w⟩ := p
    have hrs' : ∀ p ∈ rs, 2 ≤ p.2.length := fun p hp => hrs p (List.mem_cons_of_mem _ hp)
    rcases process_cons ns spare wfail k s t w rs e with ⟨-, h⟩ | ⟨s', b', hd, ⟨-, h⟩ | ⟨-, h⟩⟩
    · rw [h]; simp
    · rw [h]; simp
    · rw [h]
      obtain ⟨h1, h2⟩ := ih hrs' (k + 1) s'
      dsimp only
      refine ⟨by simp only [List.length_cons]; omega, fun i p o hp ho => ?_⟩
      cases i with
      | zero =>
        simp only [List.getElem?_cons_zero, Option.some.injEq] at hp ho
        subst hp ho
        exact dispatch_isReply ns s s' _ b' t (hrs (t, w) (by simp)) hd
      | succ i =>
        simp only [List.getElem?_cons_succ] at hp ho
        exact h2 i p o hp ho

theorem reads_stop (fin : StreamEnd) (segs : List Bytes) :
    (reads fin segs).2 = .header ∨ (reads fin segs).2 = .body := by
  induction hn : total segs using Nat.strongRecOn generalizing segs with
  | ind n ih =>
    cases hh : readHdr segs with
    | none => rw [reads_none hh]; simp
    | some p =>
      obtain ⟨l, rest⟩ := p
      have h1 := readHdr_total hh
      have h2 := readBody_total (hdrSize l - 7) rest
      rw [reads_some hh]
      split
      · simp
      · exact ih _ (by omega) _ rfl

/-- **C14** Every packet body of at least two bytes gets exactly one reply, with the same tag, a correct
size and the right type, unless the decoder or the file server panics; on a connection each executed
packet has its reply at the same position of the output (the last one has none if writing it failed or
the process died). -/
theorem C14_one_reply (ns : NineServer σ) :
    (∀ s b t, 2 ≤ b.unread.length →
      (∀ m : TMsg, m.ty = t → decT m b ≠ .panic) → (∀ m x, call ns m x ≠ .panic) →
      ∃ s' b', dispatch ns s b t = .done s' b' ∧ IsReply t b.unread b'.bytes) ∧
    (∀ spare wfail fin k s segs,
      let r := serve ns spare wfail fin k s segs
      r.execd.length = r.out.length + (if r.stop = .header ∨ r.stop = .body then 0 else 1) ∧
      ∀ (i : Nat) (p : MType × Bytes) (o : Bytes), r.execd[i]? = some p → r.out[i]? = some o →
        IsReply p.1 p.2 o) := by
  refine ⟨fun s b t hb hd hc => ?_, fun spare wfail fin k s segs => ?_⟩
  · cases h : dispatch ns s b t with
    | done s' b' => exact ⟨s', b', rfl, dispatch_isReply ns s s' b b' t hb h⟩
    | panic =>
      rcases dispatch_cases ns s b t hb with ⟨-, -, e, h1⟩ | ⟨-, m, hm, h1⟩ | ⟨-, -, e, b1, h1⟩
      · rw [h1] at h; cases h
      · rw [h1] at h
        unfold handle at h
        have hd' := hd m hm
        split at h
        · contradiction
        · rename_i m' _ _ _ _
          have := hc m' s.ns
          split at h <;> simp_all
      · rw [h1] at h; cases h
  · dsimp only
    rw [serve_eq]
    have := process_replies ns spare wfail (reads fin segs).1 (reads_length fin segs) _ (reads_stop fin segs) k s
    exact this

/-! ### C16, C15 -/

/-- **C16** A type that is not one of the 12 requests: Rerror with the tag, the file server is not
reached (the state with its call record is unchanged). -/
theorem C16_unsupported (ns : NineServer σ) (s : Server (σ × List TMsg)) (b : Buffer) (t : MType)
    (ht : t.toNat ∉ requestTypes) (hb : 2 ≤ b.unread.length) :
    ∃ b' e, dispatch (logged ns) s b t = .done s b' ∧
      b'.bytes = (RMsg.error ⟨e⟩).packet (tagOf b.unread) := by
  have hne : t ≠ MT.Tversion := by rintro rfl; exact ht (by decide)
  cases hv : s.Versioned
  · exact ⟨_, _, dispatch_unversioned _ _ _ _ hv hne hb, encodeR_bytes _ _ _⟩
  · exact ⟨_, _, dispatch_unsupported _ _ _ _ hv ht hb, encodeR_bytes _ _ _⟩

example : (102 : MType).toNat ∉ requestTypes ∧ 2 ≤ ([1, 0, 9] : Bytes).length := by decide

/-- the message types of 9P2000, with the names the server uses for them in error texts -/
def typeTable : List (MType × Nat × String) :=
   [(MT.Tversion, 100, "Tversion"), (MT.Rversion, 101, "Rversion"), (MT.Tauth, 102, "Tauth"), (MT.Rauth, 103,
    "Rauth"), (MT.Tattach, 104, "Tattach"), (MT.Rattach, 105, "Rattach"), (MT.Terror, 106, "Terror"),
    (MT.Rerror, 107, "Rerror"), (MT.Tflush, 108, "Tflush"), (MT.Rflush, 109, "Rflush"), (MT.Twalk, 110,
    "Twalk"), (MT.Rwalk, 111, "Rwalk"), (MT.Topen, 112, "Topen"), (MT.Ropen, 113, "Ropen"), (MT.Tcreate, 114,
    "Tcreate"), (MT.Rcreate, 115, "Rcreate"), (MT.Tread, 116, "Tread"), (MT.Rread, 117, "Rread"), (MT.Twrite,
    118, "Twrite"), (MT.Rwrite, 119, "Rwrite"), (MT.Tclunk, 120, "Tclunk"), (MT.Rclunk, 121, "Rclunk"),
    (MT.Tremove, 122, "Tremove"), (MT.Rremove, 123, "Rremove"), (MT.Tstat, 124, "Tstat"), (MT.Rstat, 125,
    "Rstat"), (MT.Twstat, 126, "Twstat"), (MT.Rwstat, 127, "Rwstat")]

/-- **C16**, names: the message types have the numbers of 9P2000, each has its own name in error texts, and
all other types have none. -/
theorem C16_names : (∀ e ∈ typeTable, e.1.toNat = e.2.1 ∧ rpcName e.1 = lit e.2.2) ∧ MT.Tlast.toNat = 128 ∧
    ∀ t : MType, t.toNat < 100 ∨ 128 ≤ t.toNat → rpcName t = [] := by
  refine ⟨by decide, rfl, fun t ht => ?_⟩
  unfold rpcName
  split
  · rename_i x hx
    have := (List.getElem?_eq_some_iff.1 hx).1
    simp only [List.length_cons, List.length_nil] at this
    rw [if_neg]
    omega
  · rfl

/-- **C16**, texts: the error for a message that is not supported, or comes before a Tversion, contains its
name. -/
theorem C16_texts (ns : NineServer σ) (s : Server σ) (b : Buffer) (e : MType × Nat × String) (he : e ∈ typeTable)
    (hb : 2 ≤ b.unread.length) :
    (s.Versioned = false → e.1 ≠ MT.Tversion → ∃ b', dispatch ns s b e.1 = .done s b' ∧
      b'.bytes = (RMsg.error ⟨lit "Dispatch: " ++ lit e.2.2 ++ lit " not allowed before Tversion"⟩).packet (tagOf b.unread)) ∧
    (s.Versioned = true → e.1.toNat ∉ requestTypes → ∃ b', dispatch ns s b e.1 = .done s b' ∧
      b'.bytes = (RMsg.error ⟨lit "Dispatch: " ++ lit e.2.2 ++ lit " not supported"⟩).packet (tagOf b.unread)) := by
  have hn := (C16_names.1 e he).2
  constructor
  · intro hv ht
    refine ⟨_, dispatch_unversioned _ _ _ _ hv ht hb, ?_⟩
    rw [encodeR_bytes, hn]
  · intro hv ht
    refine ⟨_, dispatch_unsupported _ _ _ _ hv ht hb, ?_⟩
    rw [encodeR_bytes, hn]

example : (MT.Tauth, 102, "Tauth") ∈ typeTable ∧ MT.Tauth.toNat ∉ requestTypes := by decide

/-- the request types that reach the file server -/
def passed (v : Bool) (ts : List MType) : List MType :=
  (if v then ts else ts.dropWhile (· ≠ MT.Tversion)).filter (·.toNat ∈ requestTypes)

theorem handle_logged {ns : NineServer σ} {s s' : Server (σ × List TMsg)} {u : Unm TMsg} {b' : Buffer}
    (h : handle (logged ns) s u = .done s' b') :
    s'.Versioned = s.Versioned ∧ ∃ m t e b, u = .done m t e b ∧ s'.ns.2 = s.ns.2 ++ [m] := by
  obtain ⟨m, t, e, b, r, hu, -, hv, hc⟩ := handle_done h
  refine ⟨hv, m, t, e, b, hu, ?_⟩
  rw [call_logged] at hc
  split at hc <;> rcases hc with hc | ⟨x, hc, -⟩ <;> simp at hc <;> rw [← hc.1]

theorem process_log (ns : NineServer σ) (spare : Nat → Bytes) (wfail : Nat → Bool)
    (rs : List (MType × Bytes)) (hrs : ∀ p ∈ rs, 2 ≤ p.2.length) (e : Stop) (he : e ≠ .panic)
    (k : Nat) (s : Server (σ × List TMsg)) :
    let r := process (logged ns) spare wfail k s rs e
    let done := if r.stop = .panic then r.execd.dropLast else r.execd
    r.srv.ns.2.map TMsg.ty = s.ns.2.map TMsg.ty ++ passed s.Versioned (done.map Prod.fst) ∧
    (s.Versioned = false → ∀ (i : Nat) (o : Bytes), r.out[i]? = some o →
      (∀ p ∈ r.execd.take (i + 1), p.1 ≠ MT.Tversion) → o[4]? = some 107) := by
  induction rs generalizing k s with
  | nil => simp [process, passed, he]
  | cons p rs ih =>
    obtain ⟨t, w⟩ := p
    have hw : 2 ≤ w.length := hrs (t, w) (by simp)
    have hrs' : ∀ p ∈ rs, 2 ≤ p.2.length := fun p hp => hrs p (List.mem_cons_of_mem _ hp)
    -- the log and the version state after one dispatch
    have step : ∀ s' b', dispatch (logged ns) s ⟨[], w, spare k⟩ t = .done s' b' → ∀ ts,
        s'.ns.2.map TMsg.ty ++ passed s'.Versioned ts = s.ns.2.map TMsg.ty ++ passed s.Versioned (t :: ts) ∧
        (s.Versioned = false → t ≠ MT.Tversion → s'.Versioned = false ∧ b'.bytes[4]? = some 107) := by
      intro s' b' hd ts
      rcases dispatch_cases (logged ns) s ⟨[], w, spare k⟩ t hw with
        ⟨hv, hne, e, h1⟩ | ⟨hv, m, rfl, h1⟩ | ⟨hv, hn, e, b1, h1⟩
      · rw [h1] at hd
        cases hd
        refine ⟨?_, fun _ _ => ⟨hv, ?_⟩⟩
        · simp [passed, hv, hne, List.dropWhile_cons]
        · rw [encodeR_bytes]; simp [RMsg.packet, Spec.packet, le, RMsg.type]
      · rw [h1] at hd
        obtain ⟨hv', m', tg, e, b1, hu, hlog⟩ := handle_logged hd
        refine ⟨?_, fun hv1 hne => ?_⟩
        · have hty : m'.ty = m.ty := decT_ty m hu
          have hmem := mem_of_ty m
          rw [hlog, hv']
          rcases hv with hv | hv
          · simp [passed, hv, hty, hmem]
          · cases hs : s.Versioned <;> simp [passed, hs, hty, hmem, hv, List.dropWhile_cons, requestTypes, MT.Tversion]
        · rcases hv with hv | hv
          · rw [hv] at hv1; cases hv1
          · exact absurd hv hne
      · rw [h1] at hd
        cases hd
        refine ⟨by simp [passed, hv, hn], fun hv1 => ?_⟩
        rw [hv] at hv1; cases hv1
    rcases process_cons (logged ns) spare wfail k s t w rs e with ⟨-, h⟩ | ⟨s', b', hd, ⟨-, h⟩ | ⟨-, h⟩⟩
    · rw [h]; simp [passed]
    · rw [h]
      dsimp only
      refine ⟨?_, by simp⟩
      have := (step s' b' hd []).1
      simpa [passed] using this
    · rw [h]
      obtain ⟨h1, h2⟩ := ih hrs' (k + 1) s'
      dsimp only
      refine ⟨?_, ?_⟩
      · rw [h1]
        have hst := fun ts => (step s' b' hd ts).1
        rw [hst]
        congr 1
        have hne : (process (logged ns) spare wfail (k + 1) s' rs e).stop = .panic →
            (process (logged ns) spare wfail (k + 1) s' rs e).execd ≠ [] := by
          cases rs with
          | nil => intro h; exact absurd h (by simpa [process] using he)
          | cons p' rs' =>
            intro _
            rcases process_cons (logged ns) spare wfail (k + 1) s' p'.1 p'.2 rs' e with
              ⟨-, h⟩ | ⟨_, _, _, ⟨-, h⟩ | ⟨-, h⟩⟩ <;> (rw [h]; simp)
        by_cases hp : (process (logged ns) spare wfail (k + 1) s' rs e).stop = .panic
        · rw [if_pos hp, if_pos hp]
          rw [List.dropLast_cons_of_ne_nil (hne hp)]; rfl
        · rw [if_neg hp, if_neg hp]; rfl
      · intro hv i o ho hall
        have ht : t ≠ MT.Tversion := hall (t, w) (by simp)
        have hs := (step s' b' hd []).2 hv ht
        cases i with
        | zero =>
          simp only [List.getElem?_cons_zero, Option.some.injEq] at ho
          rw [← ho]; exact hs.2
        | succ i =>
          simp only [List.getElem?_cons_succ] at ho
          refine h2 hs.1 i o ho fun p hp => hall p ?_
          rw [List.take_succ_cons]
          exact List.mem_cons_of_mem _ hp

/-- **C15** On a new connection, whatever the peer sends: the methods called are those of the supported
requests from the first Tversion on, one call per request in order (the call in which the process died
is not counted), and every request before the first Tversion is answered with Rerror. -/
theorem C15_version_first (ns : NineServer σ) (spare : Nat → Bytes) (wfail : Nat → Bool) (fin : StreamEnd)
    (x : σ) (segs : List Bytes) :
    let r := serve (logged ns) spare wfail fin 0 { ns := (x, []), Versioned := false } segs
    let done := if r.stop = .panic then r.execd.dropLast else r.execd
    r.srv.ns.2.map TMsg.ty =
      ((done.map Prod.fst).dropWhile (· ≠ MT.Tversion)).filter (·.toNat ∈ requestTypes) ∧
    ∀ (i : Nat) (o : Bytes), r.out[i]? = some o → (∀ p ∈ r.execd.take (i + 1), p.1 ≠ MT.Tversion) →
      o[4]? = some 107 := by
  dsimp only
  rw [serve_eq]
  have he : (reads fin segs).2 ≠ .panic := by
    rcases reads_stop fin segs with h | h <;> rw [h] <;> simp
  have := process_log ns spare wfail (reads fin segs).1 (reads_length fin segs) _ he 0 { ns := (x, []), Versioned := false }
  refine ⟨by simpa [passed] using this.1, this.2 rfl⟩

/-! ### C17 -/

/-- **C17** A well formed request on a versioned connection (or a Tversion) leads to exactly one call, of
its method with its arguments, and is answered with the encoding of the results or of the error. -/
theorem C17_faithful (ns : NineServer σ) (m : TMsg) (hm : m.Fits) (t : Tag) (pre spare : Bytes)
    (x : σ) (log : List TMsg) (v : Bool) (hv : v = true ∨ ∃ p, m = .version p) :
    match answer ns t m x with
    | none => dispatch (logged ns) ⟨(x, log), v⟩ ⟨pre, m.body t, spare⟩ m.ty = .panic
    | some (x', p) => ∃ b', dispatch (logged ns) ⟨(x, log), v⟩ ⟨pre, m.body t, spare⟩ m.ty =
        .done ⟨(x', log ++ [m]), true⟩ b' ∧ b'.bytes = p := by
  have hv' : v = true ∨ m.ty = MT.Tversion := by
    rcases hv with hv | ⟨p, rfl⟩
    · exact .inl hv
    · exact .inr rfl
  rw [dispatch_request (logged ns) m ⟨(x, log), v⟩ _ hv', (lawsT m).fwd hm]
  unfold handle answer
  dsimp only
  rw [call_logged]
  dsimp only
  cases call ns m x with
  | panic => rfl
  | ok x' r => exact ⟨_, rfl, encodeR_bytes _ _ _⟩
  | err x' e => exact ⟨_, rfl, encodeR_bytes _ _ _⟩

example : (TMsg.walk { SFID := 1, NewFID := 2, Paths := [[97], [98, 99]] }).Fits := by
  simp [TMsg.Fits]

/-! ### C18 -/

/-- **C18 is false**: on a versioned connection *every* malformed request whose decoder returns does
reach the file server, with whatever the decoder had assigned when it gave up. -/
theorem C18_counterexample (ns : NineServer σ) (m m' : TMsg) (b b1 : Buffer) (t : Tag) (err : DecErr)
    (x : σ) (log : List TMsg) (h : decT m b = .done m' t (some err) b1) :
    match call ns m' x with
    | .panic => dispatch (logged ns) ⟨(x, log), true⟩ b m.ty = .panic
    | .ok x' _ => ∃ b', dispatch (logged ns) ⟨(x, log), true⟩ b m.ty = .done ⟨(x', log ++ [m']), true⟩ b'
    | .err x' _ => ∃ b', dispatch (logged ns) ⟨(x, log), true⟩ b m.ty = .done ⟨(x', log ++ [m']), true⟩ b' := by
  rw [dispatch_request (logged ns) m ⟨(x, log), true⟩ b (.inl rfl), h]
  unfold handle
  dsimp only
  rw [call_logged]
  dsimp only
  cases call ns m' x with
  | panic => rfl
  | ok x' r => exact ⟨_, rfl⟩
  | err x' e => exact ⟨_, rfl⟩

/-- e.g. a Tremove packet with nothing behind the tag is rejected by the decoder and removes fid 0 -/
theorem C18_counterexample_remove (a b : Byte) (spare : Bytes) :
    ∃ e b1, decT (.remove {}) ⟨[], [a, b], spare⟩ = .done (.remove { OFID := 0 }) (tagOf [a, b]) (some e) b1 := by
  refine ⟨.shortInt 32, ⟨[], [], [a, b] ++ spare⟩, ?_⟩
  have : tagOf [a, b] = (asmLen16 fun i => [a, b].getD i.val 0).toUInt16 := by
    have h := asmLen16_toNat fun i => [a, b].getD i.val 0
    apply UInt16.toNat_inj.1
    rw [UInt64.toNat_toUInt16, h]
    simp [tagOf, leVal]
  rw [this]
  rfl

/-- **C18**, the part that holds: a malformed request has no effect as long as no Tversion was received.
Missing: versioned connections, where it is false. -/
theorem C18_malformed_partial (ns : NineServer σ) (m m' : TMsg) (b b1 : Buffer) (t : Tag) (err : DecErr)
    (s : Server (σ × List TMsg)) (hv : s.Versioned = false) (hm : m.ty ≠ MT.Tversion) (hb : 2 ≤ b.unread.length)
    (h : decT m b = .done m' t (some err) b1) :
    ∃ b' e, dispatch (logged ns) s b m.ty = .done s b' ∧
      b'.bytes = (RMsg.error ⟨e⟩).packet (tagOf b.unread) :=
  ⟨_, _, dispatch_unversioned _ _ _ _ hv hm hb, encodeR_bytes _ _ _⟩

/-! ### C19–C22 the connection -/

theorem packet_framing (m : TMsg) (t : Tag) (h : (m.packet t).length < 2 ^ 32) :
    (m.packet t).length = pktLen (m.packet t) ∧ (m.packet t).getD 4 0 = m.ty ∧
    (m.packet t).drop 5 = m.body t := by
  have hh := packet_header m.type m.type_lt t m.fields h
  refine ⟨?_, ?_, ?_⟩
  · unfold pktLen
    show _ = max 7 (leVal (List.take 4 (Spec.packet m.type (le 2 t.toNat ++ m.fields))))
    rw [hh.1]
    simp only [TMsg.packet, Spec.packet, TMsg.body, List.length_append, le_length]
    omega
  · rw [List.getD_eq_getElem?_getD]
    show ((Spec.packet m.type (le 2 t.toNat ++ m.fields))[4]?).getD 0 = _
    rw [hh.2.1]; rfl
  · simp [TMsg.packet, Spec.packet, List.drop_append]

theorem frames_packets (reqs : List (Tag × TMsg)) (hl : ∀ r ∈ reqs, (r.2.packet r.1).length < 2 ^ 32) :
    frames (reqs.map fun r => r.2.packet r.1).flatten = (reqs.map fun r => (r.2.ty, r.2.body r.1), []) := by
  induction reqs with
  | nil => simp [frames_short (x := []) (by have := pktLen_ge []; simp only [List.length_nil]; omega)]
  | cons r reqs ih =>
    obtain ⟨h1, h2, h3⟩ := packet_framing r.2 r.1 (hl r (by simp))
    simp only [List.map_cons, List.flatten_cons]
    rw [frames_append h1, ih fun r hr => hl r (List.mem_cons_of_mem _ hr), h2, h3]

theorem process_answers (ns : NineServer σ) (spare : Nat → Bytes) (k : Nat) (reqs : List (Tag × TMsg))
    (hf : ∀ r ∈ reqs, r.2.Fits) (s : Server σ) (hv : s.Versioned = true ∨ ∀ r ∈ reqs.head?, ∃ p, r.2 = .version p)
    (e : Stop) {x : σ} {ps : List Bytes} (ha : answers ns reqs s.ns = some (x, ps)) :
    let r := process ns spare (fun _ => false) k s (reqs.map fun r => (r.2.ty, r.2.body r.1)) e
    r.out = ps ∧ r.srv.ns = x ∧ r.stop = e ∧ r.execd = reqs.map fun r => (r.2.ty, r.2.body r.1) := by
  induction reqs generalizing k s ps with
  | nil =>
    simp only [answers, Option.some.injEq, Prod.mk.injEq] at ha
    simp [process, ha.1, ha.2]
  | cons r reqs ih =>
    obtain ⟨t, m⟩ := r
    have hv' : s.Versioned = true ∨ m.ty = MT.Tversion := by
      rcases hv with hv | hv
      · exact .inl hv
      · obtain ⟨p, hp⟩ := hv (t, m) (by simp)
        exact .inr (by rw [show m = .version p from hp]; rfl)
    have hd := dispatch_request ns m s ⟨[], m.body t, spare k⟩ hv'
    rw [(lawsT m).fwd (hf (t, m) (by simp))] at hd
    unfold answers at ha
    have key : ∀ x' r, (dispatch ns s ⟨[], m.body t, spare k⟩ m.ty = .done ⟨x', true⟩ (encodeR ⟨[] ++ m.body t, [], spare k⟩ t r)) →
        answer ns t m s.ns = some (x', r.packet t) →
        let r := process ns spare (fun _ => false) k s (((t, m) :: reqs).map fun r => (r.2.ty, r.2.body r.1)) e
        r.out = ps ∧ r.srv.ns = x ∧ r.stop = e ∧ r.execd = ((t, m) :: reqs).map fun r => (r.2.ty, r.2.body r.1) := by
      intro x' r hd' han
      rw [han] at ha
      dsimp only at ha
      cases has : answers ns reqs x' with
      | none => rw [has] at ha; cases ha
      | some q =>
        obtain ⟨x'', ps'⟩ := q
        rw [has] at ha
        simp only [Option.some.injEq, Prod.mk.injEq] at ha
        obtain ⟨rfl, rfl⟩ := ha
        have := ih (k + 1) (fun r hr => hf r (List.mem_cons_of_mem _ hr)) ⟨x', true⟩ (.inl rfl) has
        simp only [List.map_cons, process, hd', Bool.false_eq_true, if_false]
        refine ⟨?_, this.2.1, this.2.2.1, ?_⟩
        · rw [this.1, encodeR_bytes]
        · rw [this.2.2.2]
    unfold answer at ha key
    unfold handle at hd
    cases hc : call ns m s.ns with
    | panic => rw [hc] at ha; cases ha
    | ok x' r =>
      simp only [hc] at hd
      exact key x' r hd (by rw [hc])
    | err x' er =>
      simp only [hc] at hd
      exact key x' (.error ⟨er⟩) hd (by rw [hc])

/-- **C19** Requests sent back to back on a connection, cut into segments in any way that leaves the
packet headers whole: the bytes written back are the replies of processing them one after the other. -/
theorem C19_pipelined (ns : NineServer σ) (spare : Nat → Bytes) (fin : StreamEnd) (reqs : List (Tag × TMsg))
    (hf : ∀ r ∈ reqs, r.2.Fits) (hl : ∀ r ∈ reqs, (r.2.packet r.1).length < 2 ^ 32)
    (segs : List Bytes) (ha : Aligned segs) (hs : segs.flatten = (reqs.map fun r => r.2.packet r.1).flatten)
    (s : Server σ) (hv : s.Versioned = true ∨ ∀ r ∈ reqs.head?, ∃ p, r.2 = .version p)
    (x : σ) (ps : List Bytes) (hans : answers ns reqs s.ns = some (x, ps)) :
    let r := serve ns spare (fun _ => false) fin 0 s segs
    r.out = ps ∧ r.srv.ns = x ∧ r.execd = reqs.map fun r => (r.2.ty, r.2.body r.1) := by
  dsimp only
  rw [serve_eq, reads_aligned fin segs ha, hs]
  have hr : readable fin (reqs.map fun r => r.2.packet r.1).flatten =
      (reqs.map fun r => (r.2.ty, r.2.body r.1), .header) := by
    unfold readable
    rw [frames_packets reqs hl]
    simp
  rw [hr]
  have := process_answers ns spare 0 reqs hf s hv .header hans
  exact ⟨this.1, this.2.1, this.2.2.2⟩

theorem aligned_single {x : Bytes} (h : x ≠ []) : Aligned [x] := by
  refine ⟨by simpa using h, fun a b hab hb => ?_⟩
  match a, hab with
  | [], _ =>
    left
    show (frames ([] : Bytes)).2 = []
    rw [frames_short (by have := pktLen_ge []; simp only [List.length_nil]; omega)]
  | [y], h' => simp at h'; exact absurd h'.2.symm (by simpa using hb)
  | y :: z :: r, h' => simp at h'

/-- a cut inside the body of a packet is allowed -/
theorem aligned_two {x y : Bytes} (hx : 7 ≤ x.length) (hl : x.length < pktLen x) (hy : y ≠ []) :
    Aligned [x, y] := by
  have hx0 : x ≠ [] := by rintro rfl; simp at hx
  refine ⟨by simp [hx0, hy], fun a b hab hb => ?_⟩
  match a, hab with
  | [], _ =>
    left
    show (frames ([] : Bytes)).2 = []
    rw [frames_short (by have := pktLen_ge []; simp only [List.length_nil]; omega)]
  | [z], h' =>
    right
    simp at h'
    rw [← h'.1]
    simpa [frames_short hl] using hx
  | [z, w], h' => simp at h'; exact absurd h'.2.2.symm (by simpa using hb)
  | z :: w :: u :: r, h' => simp at h'

/-- a Tclunk packet cut after 9 of its 11 bytes -/
example : Aligned [[11, 0, 0, 0, 120, 1, 0, 5, 0], [0, 0]] :=
  aligned_two (by decide) (by decide) (by decide)

theorem process_prefix (ns : NineServer σ) (spare : Nat → Bytes) (wfail : Nat → Bool) (k : Nat) (s : Server σ)
    (rs : List (MType × Bytes)) (e : Stop) : (process ns spare wfail k s rs e).execd <+: rs := by
  induction rs generalizing k s with
  | nil => simp [process]
  | cons p rs ih =>
    rcases process_cons ns spare wfail k s p.1 p.2 rs e with ⟨-, h⟩ | ⟨s', b', hd, ⟨-, h⟩ | ⟨-, h⟩⟩
    · rw [h]; exact (List.prefix_cons_inj _).2 List.nil_prefix
    · rw [h]; exact (List.prefix_cons_inj _).2 List.nil_prefix
    · rw [h]; exact (List.prefix_cons_inj _).2 (ih (k + 1) s')

theorem process_wfail (ns : NineServer σ) (spare : Nat → Bytes) (wfail : Nat → Bool) (j : Nat)
    (hj : wfail j = true) (k : Nat) (hk : k ≤ j) (s : Server σ) (rs : List (MType × Bytes)) (e : Stop) :
    (process ns spare wfail k s rs e).execd.length ≤ j - k + 1 ∧
    (process ns spare wfail k s rs e).out.length ≤ j - k := by
  induction rs generalizing k s with
  | nil => simp [process]
  | cons p rs ih =>
    rcases process_cons ns spare wfail k s p.1 p.2 rs e with ⟨-, h⟩ | ⟨s', b', hd, ⟨-, h⟩ | ⟨hw, h⟩⟩
    · rw [h]; simp
    · rw [h]; simp
    · have hne : k ≠ j := by rintro rfl; rw [hw] at hj; cases hj
      have := ih (k + 1) (by omega) s'
      rw [h]
      simp only [List.length_cons]
      omega

theorem readBody_append (n : Nat) (segs y : List Bytes) (h : n ≤ segs.flatten.length) :
    readBody n (segs ++ y) = ((readBody n segs).1, (readBody n segs).2.1 ++ y, true) := by
  induction segs generalizing n with
  | nil =>
    simp at h
    subst h
    simp [readBody]
  | cons seg segs ih =>
    cases n with
    | zero => simp [readBody]
    | succ n =>
      rw [List.cons_append]
      unfold readBody
      by_cases hs : n + 1 ≤ seg.length
      · rw [if_pos hs, if_pos hs]
        simp [pushSeg]
        split <;> simp
      · rw [if_neg hs, if_neg hs]
        simp only [List.flatten_cons, List.length_append] at h
        rw [ih (n + 1 - seg.length) (by omega)]

theorem readHdr_append {segs rest y : List Bytes} {l : Bytes} (h : readHdr segs = some (l, rest)) :
    readHdr (segs ++ y) = some (l, rest ++ y) := by
  cases segs with
  | nil => cases h
  | cons seg segs =>
    by_cases hl : seg.length < 7
    · simp [readHdr, hl] at h
    · simp only [readHdr, hl, if_false, Option.some.injEq, Prod.mk.injEq] at h
      simp only [List.cons_append, readHdr, hl, if_false, ← h.1, ← h.2, pushSeg]
      split <;> simp

theorem reads_short (fin : StreamEnd) (segs : List Bytes) (ha : Aligned segs) (hf : (frames segs.flatten).2 = [])
    (short : Bytes) (more : List Bytes) (hs : short.length < 7) :
    reads fin (segs ++ short :: more) = ((frames segs.flatten).1, .header) := by
  induction hn : total segs using Nat.strongRecOn generalizing segs with
  | ind n ih =>
    by_cases h7 : segs.flatten.length < 7
    · have hfs := frames_short (x := segs.flatten) (by have := pktLen_ge segs.flatten; omega)
      rw [hfs] at hf ⊢
      have hnil : segs = [] := by
        by_cases he : segs = []
        · exact he
        · exact absurd hf (flatten_ne ha.1 he)
      subst hnil
      exact reads_none (by rw [List.nil_append, readHdr, if_pos hs])
    · obtain ⟨l, rest, hh⟩ := aligned_hdr ha (by omega)
      have h1 := readHdr_total hh
      have h2 := readBody_total (hdrSize l - 7) rest
      have hle : pktLen segs.flatten ≤ segs.flatten.length := by
        apply Nat.le_of_not_lt
        intro hlt
        rw [frames_short hlt] at hf
        dsimp only at hf
        rw [hf] at h7; simp at h7
      have hstep := reads_step (fin := fin) hh
      rcases hstep with ⟨hl, hf', hr⟩ | ⟨hl, _⟩ | ⟨hl, _⟩
      · obtain ⟨e1, e2, e3⟩ := readHdr_eq hh
        have hpk : pktLen segs.flatten = max 7 (hdrSize l) := by
          rw [e1, hdrSize_eq (by omega)]; rfl
        have hlen : rest.flatten.length = segs.flatten.length - 7 := by rw [e2, List.length_drop]
        have hb := readBody_append (hdrSize l - 7) rest (short :: more) (by omega)
        have hc := (readBody_eq (hdrSize l - 7) rest).2.2.2 (by omega)
        have hfl := frames_long hle
        have ih' := ih (total (readBody (hdrSize l - 7) rest).2.1) (by omega) _ (aligned_rest ha hh hle)
          (by rw [hf']; rw [hfl] at hf; exact hf) rfl
        rw [reads_some (readHdr_append hh), hb]
        dsimp only
        rw [if_neg (by simp), ih', hfl, ← hf']
        rw [reads_some hh, if_neg (by rw [hc]; simp)] at hr
        simp only [Prod.mk.injEq, List.cons.injEq] at hr
        dsimp only
        rw [hr.1.1.1, hr.1.1.2]
      · omega
      · omega

/-- **C20**, the part that holds: what a connection does is the same for all segmentations of a byte
stream that do not cut through a packet header.  Missing: cuts inside a header, where it is false. -/
theorem C20_segmentation_partial (ns : NineServer σ) (spare : Nat → Bytes) (wfail : Nat → Bool)
    (fin : StreamEnd) (s : Server σ) (segs segs' : List Bytes) (ha : Aligned segs) (ha' : Aligned segs')
    (h : segs.flatten = segs'.flatten) :
    serve ns spare wfail fin 0 s segs = serve ns spare wfail fin 0 s segs' := by
  rw [serve_eq, serve_eq, reads_aligned fin segs ha, reads_aligned fin segs' ha', h]

/-- **C20 is false**: any request that arrives in one segment is executed; cut anywhere inside its
header it is not, and the connection is dropped. -/
theorem C20_counterexample (ns : NineServer σ) (spare : Nat → Bytes) (wfail : Nat → Bool) (fin : StreamEnd)
    (s : Server σ) (m : TMsg) (t : Tag) (hl : (m.packet t).length < 2 ^ 32) (k : Nat) (h0 : 0 < k) (h7 : k < 7) :
    (serve ns spare wfail fin 0 s [m.packet t]).execd = [(m.ty, m.body t)] ∧
    (serve ns spare wfail fin 0 s [(m.packet t).take k, (m.packet t).drop k]) = ⟨[], [], s, .header⟩ := by
  constructor
  · obtain ⟨h1, h2, h3⟩ := packet_framing m t hl
    have h7 := pktLen_ge (m.packet t)
    have hne : m.packet t ≠ [] := by
      intro h; have := congrArg List.length h; simp only [List.length_nil] at this; omega
    rw [serve_eq, reads_aligned _ _ (aligned_single hne)]
    have hf := frames_packets [(t, m)] (by simpa using hl)
    have hr : readable fin [m.packet t].flatten = ([(m.ty, m.body t)], .header) := by
      unfold readable
      simp only [List.map_cons, List.map_nil] at hf
      rw [hf]; simp
    rw [hr]
    rcases process_cons ns spare wfail 0 s m.ty (m.body t) [] .header with
      ⟨-, h⟩ | ⟨s', b', hd, ⟨-, h⟩ | ⟨-, h⟩⟩ <;> (rw [h]; try rfl)
  · have : readHdr [(m.packet t).take k, (m.packet t).drop k] = none := by
      rw [readHdr, if_pos]
      rw [List.length_take]; omega
    rw [serve_eq, reads_none this]
    rfl

/-- **C21**, the part that holds: whatever arrives, in whatever segments, only complete packets are
executed, in order, if the connection ends with an error or inside a header.  Missing: the peer closes
the connection inside a body, where it is false. -/
theorem C21_cut_off_partial (ns : NineServer σ) (spare : Nat → Bytes) (wfail : Nat → Bool)
    (fin : StreamEnd) (k : Nat) (s : Server σ) (segs : List Bytes)
    (h : fin = .error ∨ (frames segs.flatten).2.length < 7) :
    (serve ns spare wfail fin k s segs).execd <+: (frames segs.flatten).1 := by
  rw [serve_eq]
  refine (process_prefix ns spare wfail k s _ _).trans ?_
  refine (reads_prefix fin segs).trans ?_
  unfold readable
  by_cases hl : (frames segs.flatten).2.length < 7
  · rw [if_pos hl]; exact List.prefix_refl _
  · rw [if_neg hl]
    rcases h with h | h
    · rw [if_pos h]; exact List.prefix_refl _
    · exact absurd h hl

/-- **C21 is false**: a request cut off by the peer anywhere behind its header is executed: the file
server method is called with a message made from the part that arrived.  (Without a counted payload;
the decoders of those may also panic, C11.) -/
theorem C21_counterexample (ns : NineServer σ) (spare : Nat → Bytes) (x : σ) (m : TMsg) (t : Tag)
    (hm : payloadAt (.inl m) = none) (hl : (m.packet t).length < 2 ^ 32) (k : Nat) (h7 : 7 ≤ k)
    (hk : k < (m.packet t).length) :
    let r := serve (logged ns) spare (fun _ => false) .eof 0 ⟨(x, []), true⟩ [(m.packet t).take k]
    r.execd = [(m.ty, (m.body t).take (k - 5))] ∧
    ∃ m' : TMsg, m'.ty = m.ty ∧ match call ns m' x with
      | .panic => r.stop = .panic
      | _ => r.srv.ns.2 = [m'] ∧ r.out.length = 1 := by
  obtain ⟨h1, h2, h3⟩ := packet_framing m t hl
  have hk' : ((m.packet t).take k).length = k := by rw [List.length_take]; omega
  have hne : (m.packet t).take k ≠ [] := by intro h; rw [h] at hk'; simp at hk'; omega
  have hp : pktLen ((m.packet t).take k) = pktLen (m.packet t) := by
    unfold pktLen
    rw [List.take_take, Nat.min_eq_left (by omega)]
  have hr : reads .eof [(m.packet t).take k] = ([(m.ty, (m.body t).take (k - 5))], .header) := by
    rw [reads_aligned _ _ (aligned_single hne)]
    have hfl : [(m.packet t).take k].flatten = (m.packet t).take k := by simp
    rw [hfl, readable_eof (by rw [hp, hk']; omega) (by omega), getD_take (by omega), h2,
      List.drop_take, h3]
  dsimp only
  rw [serve_eq, hr]
  have hd := dispatch_request (logged ns) m ⟨(x, []), true⟩ ⟨[], (m.body t).take (k - 5), spare 0⟩ (.inl rfl)
  cases hdec : decT m ⟨[], (m.body t).take (k - 5), spare 0⟩ with
  | panic => exact absurd hdec (decT_safe m hm _)
  | done m' tg e b1 =>
    rw [hdec] at hd
    unfold handle at hd
    simp only [call_logged] at hd
    simp only [process]
    cases hc : call ns m' x with
    | panic =>
      simp only [hc] at hd
      rw [hd]
      exact ⟨rfl, m', decT_ty m hdec, by rw [hc]⟩
    | ok x' r =>
      simp only [hc] at hd
      rw [hd]
      exact ⟨rfl, m', decT_ty m hdec, by rw [hc]; exact ⟨rfl, rfl⟩⟩
    | err x' r =>
      simp only [hc] at hd
      rw [hd]
      exact ⟨rfl, m', decT_ty m hdec, by rw [hc]; exact ⟨rfl, rfl⟩⟩

example : payloadAt (.inl (.remove { OFID := 7 })) = none ∧ 10 < ((TMsg.remove { OFID := 7 }).packet 1).length := by
  decide

/-- **C22** Nothing more is executed or written
(1) after a reply that could not be written,
(2) after a header that arrived in a segment of less than 7 bytes, whatever follows,
(3) after the connection failed inside a body: only complete packets are executed. -/
theorem C22_dead_connection (ns : NineServer σ) (spare : Nat → Bytes) (wfail : Nat → Bool)
    (fin : StreamEnd) (s : Server σ) (segs : List Bytes) :
    (∀ j, wfail j = true → (serve ns spare wfail fin 0 s segs).execd.length ≤ j + 1 ∧
      (serve ns spare wfail fin 0 s segs).out.length ≤ j) ∧
    (∀ (short : Bytes) (more : List Bytes), Aligned segs → (frames segs.flatten).2 = [] → short.length < 7 →
      serve ns spare wfail fin 0 s (segs ++ short :: more) = serve ns spare wfail fin 0 s segs) ∧
    (fin = .error → (serve ns spare wfail fin 0 s segs).execd <+: (frames segs.flatten).1 ∧
      (serve ns spare wfail fin 0 s segs).out.length ≤ (frames segs.flatten).1.length) := by
  refine ⟨fun j hj => ?_, fun short more ha hf hs => ?_, fun he => ?_⟩
  · rw [serve_eq]
    have := process_wfail ns spare wfail j hj 0 (by omega) s (reads fin segs).1 (reads fin segs).2
    simpa using this
  · rw [serve_eq, serve_eq, reads_short fin segs ha hf short more hs, reads_aligned fin segs ha]
    unfold readable
    rw [hf]; simp
  · have h := C21_cut_off_partial ns spare wfail fin 0 s segs (.inl he)
    have h2 := (C14_one_reply ns).2 spare wfail fin 0 s segs
    have := h.length_le
    exact ⟨h, by have := h2.1; omega⟩

/-! ### C24 -/

/-- Where the payload comes from: `m` leaves `get` of the results empty or assigns to it a slice that
starts `n0 + w` bytes behind the current position (or at the end of the packet, if that comes first). -/
def DataFrom {R : Type} (get : R → Bytes) (w : Nat) (m : Dec R Unit) (n0 : Nat) : Prop :=
  ∀ s s', ((∃ a, m s = .ok a s') ∨ ∃ e, m s = .ret e s') → get s.r = [] →
    get s'.r = [] ∨ (n0 < s.b.unread.length ∧ ∃ l, get s'.r = (s.b.unread.drop (n0 + w) ++ s.b.spare).take l)

theorem DataFrom.read {R : Type} {get : R → Bytes} {w n0 n : Nat} {e : DecErr} {k : (Fin 8 → Byte) → Dec R Unit}
    {m : Dec R Unit} (hk : ∀ u s, ∃ t r, k u s = .ok () { s with t := t, r := r } ∧ get r = get s.r)
    (h : DataFrom get w m n0) : DataFrom get w ((readU n e >>= k) >>= fun _ => m) (n0 + n) := by
  intro s s' hs hg
  by_cases h0 : s.b.unread = []
  · left
    have h' : ∃ s'', readU n e s = .ret e s'' ∧ s''.r = s.r := by
      unfold readU
      rw [Buffer.read, if_pos (by simp [h0])]
      exact ⟨_, rfl, rfl⟩
    obtain ⟨s'', h', hr⟩ := h'
    simp only [bind_def, h'] at hs
    rcases hs with ⟨a, ha⟩ | ⟨e, he⟩
    · cases ha
    · injection he with h1 h2
      rw [← h2, hr]; exact hg
  · have h1 := readU_eq n e s h0
    obtain ⟨t, r, h2, h3⟩ := hk (fun i => (s.b.unread.take n).getD i.val (s.u i))
      { s with b := { s.b with pre := s.b.pre ++ s.b.unread.take n, unread := s.b.unread.drop n }
               u := fun i => (s.b.unread.take n).getD i.val (s.u i) }
    simp only [bind_def, h1, h2] at hs
    rcases h _ s' hs (by rw [← hg]; exact h3) with h4 | ⟨h4, l, h5⟩
    · exact .inl h4
    · right
      dsimp only at h4 h5
      rw [List.length_drop] at h4
      refine ⟨by omega, l, ?_⟩
      rw [h5, List.drop_drop]
      congr 3; omega

theorem finish_r {R : Type} {s s' : DSt R} (h : (∃ a, finish s = .ok a s') ∨ ∃ e, finish s = .ret e s') :
    s' = s := by
  unfold finish at h
  split at h
  · rcases h with ⟨a, h⟩ | ⟨e, h⟩ <;> cases h; rfl
  · rcases h with ⟨a, h⟩ | ⟨e, h⟩ <;> cases h; rfl

theorem takeData_cases {R : Type} (l : Nat) (set : Bytes → R → R) (s : DSt R) :
    takeData l set s = .panic ∨
    takeData l set s = .ok () { s with r := set ((s.b.unread ++ s.b.spare).take l) s.r, b := s.b.next l } := by
  unfold takeData Buffer.sliceTo
  by_cases h : l ≤ (s.b.unread ++ s.b.spare).length
  · right; rw [if_pos h]
  · left; rw [if_neg h]

theorem dataFrom_last {R : Type} (get : R → Bytes) (w : Nat) (hw : 0 < w) (e : DecErr) (set : Bytes → R → R)
    (hset : ∀ v r, get (set v r) = v) (len : (Fin 8 → Byte) → Nat) :
    DataFrom get w ((readU w e >>= fun u => takeData (len u) set) >>= fun _ => finish) 0 := by
  intro s s' hs hg
  by_cases h0 : s.b.unread = []
  · left
    have h' : ∃ s'', readU w e s = .ret e s'' ∧ s''.r = s.r := by
      unfold readU
      rw [Buffer.read, if_pos (by simp [h0])]
      exact ⟨_, rfl, rfl⟩
    obtain ⟨s'', h', hr⟩ := h'
    simp only [bind_def, h'] at hs
    rcases hs with ⟨a, ha⟩ | ⟨e, he⟩
    · cases ha
    · injection he with h1 h2
      rw [← h2, hr]; exact hg
  · right
    have h1 := readU_eq w e s h0
    simp only [bind_def, h1] at hs
    refine ⟨List.length_pos_iff.2 h0, ?_⟩
    generalize hu : (fun i : Fin 8 => (s.b.unread.take w).getD i.val (s.u i)) = u at hs
    have ht := takeData_cases (len u) set ⟨⟨s.b.pre ++ s.b.unread.take w, s.b.unread.drop w, s.b.spare⟩, u, s.t, s.r⟩
    rcases ht with ht | ht
    · rw [ht] at hs
      rcases hs with ⟨a, hs⟩ | ⟨e, hs⟩ <;> cases hs
    · rw [ht] at hs
      have := finish_r hs
      rw [this]
      exact ⟨len u, by rw [hset, Nat.zero_add]⟩

theorem run_data {R : Type} {get : R → Bytes} {w n0 : Nat} {m : Dec R Unit} (h : DataFrom get w m n0)
    {zero : R} (hz : get zero = []) {b b1 : Buffer} {r t e} (hr : Dec.run m zero b = .done r t e b1) :
    get r = [] ∨ (n0 < b.unread.length ∧ ∃ l, get r = (b.unread.drop (n0 + w) ++ b.spare).take l) := by
  unfold Dec.run at hr
  split at hr
  · rename_i s' hm
    have := h _ s' (.inl ⟨_, hm⟩) hz
    cases hr
    exact this
  · rename_i e' s' hm
    have := h _ s' (.inr ⟨_, hm⟩) hz
    cases hr
    exact this
  · cases hr

theorem DataFrom.tag {R : Type} {get : R → Bytes} {w n0 : Nat} {m : Dec R Unit} (h : DataFrom get w m n0) :
    DataFrom get w (getTag >>= fun _ => m) (n0 + 2) :=
  DataFrom.read (fun _ s => ⟨_, s.r, rfl, rfl⟩) h

theorem DataFrom.u32 {R : Type} {get : R → Bytes} {w n0 : Nat} {m : Dec R Unit} (f : UInt32 → R → R)
    (hf : ∀ v r, get (f v r) = get r) (h : DataFrom get w m n0) :
    DataFrom get w (getU32 f >>= fun _ => m) (n0 + 4) :=
  DataFrom.read (fun _ s => ⟨s.t, _, rfl, hf _ _⟩) h

theorem DataFrom.u64 {R : Type} {get : R → Bytes} {w n0 : Nat} {m : Dec R Unit} (f : UInt64 → R → R)
    (hf : ∀ v r, get (f v r) = get r) (h : DataFrom get w m n0) :
    DataFrom get w (getU64 f >>= fun _ => m) (n0 + 8) :=
  DataFrom.read (fun _ s => ⟨s.t, _, rfl, hf _ _⟩) h

theorem DataFrom.data32 {R : Type} {get : R → Bytes} (f : Bytes → R → R) (hf : ∀ v r, get (f v r) = v) :
    DataFrom get 4 (getData32 f >>= fun _ => finish) 0 := dataFrom_last get 4 (by omega) _ f hf _

theorem DataFrom.data16 {R : Type} {get : R → Bytes} (f : Bytes → R → R) (hf : ∀ v r, get (f v r) = v) :
    DataFrom get 2 (getData16 f >>= fun _ => finish) 0 := dataFrom_last get 2 (by omega) _ f hf _

/-- the slice that the Twrite decoder returns as data -/
theorem Twrite_data {b b1 : Buffer} {p : TwritePkt} {t e} (h : unmarshalTwrite b = .done p t e b1) :
    p.Data = [] ∨ (14 < b.unread.length ∧ ∃ l, p.Data = (b.unread.drop 18 ++ b.spare).take l) :=
by
  have hm := DataFrom.tag <| DataFrom.u32 (get := TwritePkt.Data) (fun v r => { r with OFID := v }) (fun _ _ => rfl) <|
      DataFrom.u64 (fun v r => { r with Off := v }) (fun _ _ => rfl) <|
      DataFrom.data32 (fun v r => { r with Data := v }) fun _ _ => rfl
  exact run_data hm (zero := {}) rfl h

/-- the slice that the Twstat decoder returns as data -/
theorem Twstat_data {b b1 : Buffer} {p : TwstatPkt} {t e} (h : unmarshalTwstat b = .done p t e b1) :
    p.B = [] ∨ (6 < b.unread.length ∧ ∃ l, p.B = (b.unread.drop 8 ++ b.spare).take l) :=
by
  have hm := DataFrom.tag <| DataFrom.u32 (get := TwstatPkt.B) (fun v r => { r with OFID := v }) (fun _ _ => rfl) <|
      DataFrom.data16 (fun v r => { r with B := v }) fun _ _ => rfl
  exact run_data hm (zero := {}) rfl h

/-- The payload of a write or wstat request, and the position of its slice in the array of the buffer
`b` it was decoded from. -/
def payloadSlice (b : Buffer) : TMsg → Option (Nat × Bytes)
  | .write p => some (b.pre.length + min 18 b.unread.length, p.Data)
  | .wstat p => some (b.pre.length + min 8 b.unread.length, p.B)
  | _ => none

theorem backing_drop (b : Buffer) (n : Nat) :
    b.backing.drop (b.pre.length + min n b.unread.length) = b.unread.drop n ++ b.spare := by
  unfold Buffer.backing
  rw [List.append_assoc, ← List.drop_drop, List.drop_left]
  by_cases h : n ≤ b.unread.length
  · rw [Nat.min_eq_left h, List.drop_append_of_le_length h]
  · rw [Nat.min_eq_right (by omega), List.drop_left, List.drop_of_length_le (l := b.unread) (by omega), List.nil_append]

/-- writing a reply changes only the first bytes of the array -/
theorem encoded_drop (b : Buffer) (p : Bytes) (n : Nat) (h : p.length ≤ n) (hb : n ≤ b.backing.length) :
    (encoded b p).backing.drop n = b.backing.drop n := by
  unfold encoded
  show (([] ++ p) ++ b.backing.drop p.length).drop n = _
  rw [List.nil_append, List.drop_append, List.drop_of_length_le h, List.nil_append, List.drop_drop]
  congr 1; omega

/-- **C24** Whatever the packet looks like: when a write or wstat call succeeds, the slice that was handed
to the file server holds the same bytes before and after the reply is encoded into the same buffer. -/
theorem C24_payload_intact (ns : NineServer σ) (m : TMsg) (b b1 : Buffer) (m' : TMsg) (t : Tag) (e)
    (x x' : σ) (r : RMsg) (hd : decT m b = .done m' t e b1) (hc : call ns m' x = .ok x' r)
    (off : Nat) (data : Bytes) (hp : payloadSlice b m' = some (off, data)) :
    ∃ b', dispatch ns ⟨x, true⟩ b m.ty = .done ⟨x', true⟩ b' ∧
      (b.backing.drop off).take data.length = data ∧ (b'.backing.drop off).take data.length = data := by
  have hdis := dispatch_request ns m ⟨x, true⟩ b (.inl rfl)
  rw [hd] at hdis
  simp only [handle, hc] at hdis
  refine ⟨_, hdis, ?_⟩
  have hbk := (decT_keeps m hd).1
  rw [encodeR_eq]
  have fin : ∀ (w n0 n : Nat), (r.packet t).length ≤ n0 + 1 → n0 < n →
      (data = [] ∨ (n0 < b.unread.length ∧ ∃ l, data = (b.unread.drop n ++ b.spare).take l)) →
      off = b.pre.length + min n b.unread.length →
      (b.backing.drop off).take data.length = data ∧ ((encoded b1 (r.packet t)).backing.drop off).take data.length = data := by
    intro w n0 n hlen hn hdata hoff
    rcases hdata with rfl | ⟨h1, l, h2⟩
    · simp
    · have hb : (b.backing.drop off).take data.length = data := by
        rw [hoff, backing_drop, h2]
        simp [List.take_take]
      refine ⟨hb, ?_⟩
      rw [encoded_drop, hbk, hb]
      · omega
      · rw [hbk, hoff]
        simp only [Buffer.backing, List.length_append]
        omega
  have hty := call_type ns m' x x' r hc
  cases m <;> obtain ⟨p, hu, rfl⟩ := map_done hd <;> simp only [payloadSlice, reduceCtorEq, Option.some.injEq, Prod.mk.injEq] at hp
  · obtain ⟨h1, rfl⟩ := hp
    have hr : (r.packet t).length = 7 := by
      cases r <;> simp [RMsg.type, TMsg.type] at hty
      simp [RMsg.packet, Spec.packet, RMsg.body, RMsg.fields]
    exact fin 2 6 8 (by omega) (by omega) (Twstat_data hu) h1.symm
  · obtain ⟨h1, rfl⟩ := hp
    have hr : (r.packet t).length = 11 := by
      cases r <;> simp [RMsg.type, TMsg.type] at hty
      simp [RMsg.packet, Spec.packet, RMsg.body, RMsg.fields]
    exact fin 4 14 18 (by omega) (by omega) (Twrite_data hu) h1.symm

end

/-! ### a concrete file server, to see that the hypotheses above can be met -/

/-- counts its calls; walk, remove and read are refused -/
def countNS : NineServer Nat where
  Rversion m v n := .ok (n + 1) (m, v)
  Rattach _ _ _ _ n := .ok (n + 1) {}
  Rwalk _ _ _ n := .err (n + 1) [1]
  Ropen _ _ n := .ok (n + 1) ({}, 8192)
  Rcreate _ _ _ _ n := .ok (n + 1) ({}, 8192)
  Rstat _ n := .ok (n + 1) [1, 2]
  Rwstat _ _ n := .ok (n + 1) ()
  Rclunk _ n := .ok (n + 1) ()
  Rremove _ n := .err (n + 1) [2]
  Rread _ _ _ n := .err (n + 1) [3]
  Rwrite _ _ d n := .ok (n + 1) (Int32.ofNat d.length)
  Rflush _ n := .ok (n + 1) ()

/-- C19: three requests, the last one refused -/
example : answers countNS [(1, .version { TMsize := 8192, TVersion := [57] }), (2, .clunk { OFID := 1 }),
    (3, .remove { OFID := 2 })] 0 =
    some (3, [(RMsg.version { RMsize := 8192, RVersion := [57] }).packet 1, (RMsg.clunk {}).packet 2,
      (RMsg.error { Error := [2] }).packet 3]) := rfl

/-- C24: a write of three bytes that succeeds -/
example : ∃ b1 x' r, decT (.write {}) ⟨[], (TMsg.write { OFID := 1, Off := 0, Data := [5, 6, 7] }).body 9, [0, 0]⟩ =
      .done (.write { OFID := 1, Off := 0, Data := [5, 6, 7] }) 9 none b1 ∧
    call countNS (.write { OFID := 1, Off := 0, Data := [5, 6, 7] }) 0 = .ok x' r :=
  ⟨_, _, _, (lawsT (.write { OFID := 1, Off := 0, Data := [5, 6, 7] })).fwd
    (by simp [TMsg.Fits]) _ _ _, rfl⟩

/-- C22: the second of two packets cannot be answered -/
example : (serve countNS (fun _ => []) (fun k => k == 1) .eof 0 ⟨0, true⟩
    [(TMsg.clunk { OFID := 1 }).packet 1, (TMsg.clunk { OFID := 1 }).packet 2, (TMsg.clunk { OFID := 1 }).packet 3]).srv.ns = 2 := by
  rw [serve_eq]
  have : reads .eof [(TMsg.clunk { OFID := 1 }).packet 1, (TMsg.clunk { OFID := 1 }).packet 2,
      (TMsg.clunk { OFID := 1 }).packet 3] = ([(120, (TMsg.clunk { OFID := 1 }).body 1),
      (120, (TMsg.clunk { OFID := 1 }).body 2), (120, (TMsg.clunk { OFID := 1 }).body 3)], .header) := by
    rw [reads_some (l := ((TMsg.clunk { OFID := 1 }).packet 1).take 7) rfl]
    rw [reads_some (l := ((TMsg.clunk { OFID := 1 }).packet 2).take 7) rfl]
    rw [reads_some (l := ((TMsg.clunk { OFID := 1 }).packet 3).take 7) rfl]
    rw [reads_none rfl]
    rfl
  rw [this]
  rfl

end Ninep
