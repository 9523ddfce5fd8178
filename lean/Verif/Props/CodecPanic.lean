import Verif.Props.Codec
/-
Property C11: exactly when a decoder panics.
-/

namespace Ninep
open Spec Dec

/-- a block that never panics -/
def Safe {R α : Type} (m : Dec R α) : Prop := ∀ s, m s ≠ .panic

section
variable {R α β : Type}

theorem Safe.bind {m : Dec R α} {f : α → Dec R β} (h : Safe m) (hf : ∀ a, Safe (f a)) : Safe (m >>= f) := by
  intro s
  rw [bind_def]
  cases hm : m s with
  | ok a s' => exact hf a s'
  | ret e s' => simp
  | panic => exact absurd hm (h s)

theorem safe_readU (n : Nat) (e : DecErr) : Safe (R := R) (readU n e) := by
  intro s
  by_cases h : s.b.unread = []
  · obtain ⟨s', h'⟩ := readU_empty n e s h
    rw [h']; simp
  · rw [readU_eq n e s h]; simp

theorem safe_setR (f : R → R) : Safe (setR f) := by intro s; simp [setR]
theorem safe_setT (t : Tag) : Safe (R := R) (setT t) := by intro s; simp [setT]
theorem safe_pure : Safe (R := R) (pure ()) := by intro s h; cases h

theorem safe_tag : Safe (R := R) getTag := (safe_readU _ _).bind fun _ => safe_setT _
theorem safe_u8 (f : UInt8 → R → R) : Safe (getU8 f) := (safe_readU _ _).bind fun _ => safe_setR _
theorem safe_u16 (f : UInt16 → R → R) : Safe (getU16 f) := (safe_readU _ _).bind fun _ => safe_setR _
theorem safe_u32 (f : UInt32 → R → R) : Safe (getU32 f) := (safe_readU _ _).bind fun _ => safe_setR _
theorem safe_u64 (f : UInt64 → R → R) : Safe (getU64 f) := (safe_readU _ _).bind fun _ => safe_setR _
theorem safe_count (f : Int32 → R → R) : Safe (getCount f) := (safe_readU _ _).bind fun _ => safe_setR _

theorem safe_string (f : GoString → R → R) : Safe (getString f) :=
  (safe_readU _ _).bind fun _ s => by
    unfold takeString
    split <;> simp

theorem safe_qid (upd : (QID → QID) → R → R) : Safe (getQID upd) :=
  (safe_u8 _).bind fun _ => (safe_u32 _).bind fun _ => safe_u64 _

theorem safe_forRange {body : Nat → Dec R Unit} (h : ∀ i, Safe (body i)) (k i : Nat) :
    Safe (forRange body k i) := by
  induction k generalizing i with
  | zero => exact safe_pure
  | succ k ih => exact (h i).bind fun _ => ih (i + 1)

theorem safe_strings (upd : (List GoString → List GoString) → R → R) : Safe (getStrings upd) :=
  (safe_readU _ _).bind fun _ => (safe_setR _).bind fun _ => safe_forRange (fun _ => safe_string _) _ _

theorem safe_qids (upd : (List QID → List QID) → R → R) : Safe (getQIDs upd) :=
  (safe_readU _ _).bind fun _ => (safe_setR _).bind fun _ => safe_forRange (fun _ => safe_qid _) _ _

theorem safe_finish : Safe (R := R) finish := by
  intro s
  unfold finish
  split <;> simp

theorem Safe.run {m : Dec R Unit} (h : Safe m) (zero : R) (b : Buffer) : Dec.run m zero b ≠ .panic := by
  unfold Dec.run
  cases hm : m ⟨b, fun _ => 0, 0, zero⟩ with
  | ok a s' => simp
  | ret e s' => simp
  | panic => exact absurd hm (h _)

end

/-- the stat decoder never panics -/
theorem unmarshaldir_safe (b : Buffer) : unmarshaldir b ≠ .panic := by
  refine Safe.run ?_ _ _
  exact (safe_u16 _).bind fun _ => (safe_u32 _).bind fun _ => (safe_qid _).bind fun _ =>
    (safe_u32 _).bind fun _ => (safe_u32 _).bind fun _ => (safe_u32 _).bind fun _ => (safe_u64 _).bind fun _ =>
    (safe_string _).bind fun _ => (safe_string _).bind fun _ => (safe_string _).bind fun _ => safe_string _

/-! ### the counted payloads -/

section
variable {R : Type}

/-- `m` panics exactly if the buffer and the scratch array satisfy `Q`. -/
def PanicIff (m : Dec R Unit) (Q : Buffer → (Fin 8 → Byte) → Prop) : Prop :=
  ∀ s, m s = .panic ↔ Q s.b s.u

/-- the scratch array after reading `w` into it -/
def upU (w : Bytes) (u : Fin 8 → Byte) : Fin 8 → Byte := fun i => w.getD i.val (u i)

theorem PanicIff.read {n : Nat} {e : DecErr} {k : (Fin 8 → Byte) → Dec R Unit} {m : Dec R Unit} {Q}
    (hk : ∀ u s, ∃ t r, k u s = .ok () { s with t := t, r := r }) (h : PanicIff m Q) :
    PanicIff ((readU n e >>= k) >>= fun _ => m) (fun b u => b.unread ≠ [] ∧
      Q ⟨b.pre ++ b.unread.take n, b.unread.drop n, b.spare⟩ (upU (b.unread.take n) u)) := by
  intro s
  by_cases hs : s.b.unread = []
  · obtain ⟨s', h'⟩ := readU_empty n e s hs
    simp [bind_def, h', hs]
  · have h1 := readU_eq n e s hs
    simp only [bind_def, h1]
    obtain ⟨t, r, h2⟩ := hk (fun i => (s.b.unread.take n).getD i.val (s.u i))
      { s with b := { s.b with pre := s.b.pre ++ s.b.unread.take n, unread := s.b.unread.drop n }
               u := fun i => (s.b.unread.take n).getD i.val (s.u i) }
    rw [h2]
    simp only [hs, ne_eq, not_false_eq_true, true_and]
    rw [h]; rfl

theorem PanicIff.tag {m : Dec R Unit} {Q} (h : PanicIff m Q) :
    PanicIff (getTag >>= fun _ => m) (fun b u => b.unread ≠ [] ∧
      Q ⟨b.pre ++ b.unread.take 2, b.unread.drop 2, b.spare⟩ (upU (b.unread.take 2) u)) :=
  PanicIff.read (fun _ s => ⟨_, s.r, rfl⟩) h

theorem PanicIff.u32 {m : Dec R Unit} {Q} (f) (h : PanicIff m Q) :
    PanicIff (getU32 f >>= fun _ => m) (fun b u => b.unread ≠ [] ∧
      Q ⟨b.pre ++ b.unread.take 4, b.unread.drop 4, b.spare⟩ (upU (b.unread.take 4) u)) :=
  PanicIff.read (fun _ s => ⟨s.t, _, rfl⟩) h

theorem PanicIff.u64 {m : Dec R Unit} {Q} (f) (h : PanicIff m Q) :
    PanicIff (getU64 f >>= fun _ => m) (fun b u => b.unread ≠ [] ∧
      Q ⟨b.pre ++ b.unread.take 8, b.unread.drop 8, b.spare⟩ (upU (b.unread.take 8) u)) :=
  PanicIff.read (fun _ s => ⟨s.t, _, rfl⟩) h

theorem takeData_panic (l : Nat) (f : Bytes → R → R) (s : DSt R) :
    takeData l f s = .panic ↔ s.b.unread.length + s.b.spare.length < l := by
  unfold takeData Buffer.sliceTo
  by_cases h : l ≤ (s.b.unread ++ s.b.spare).length
  · simp only [h, if_true]
    rw [List.length_append] at h
    constructor
    · intro h'; cases h'
    · intro; omega
  · simp only [h, if_false]
    rw [List.length_append] at h
    simp; omega

theorem panicIff_data16 (f : Bytes → R → R) :
    PanicIff (getData16 f >>= fun _ => finish) (fun b u => b.unread ≠ [] ∧
      (b.unread.drop 2).length + b.spare.length < leVal (pfx 2 (upU (b.unread.take 2) u))) := by
  intro s
  by_cases hs : s.b.unread = []
  · obtain ⟨s', h'⟩ := readU_empty 2 (.shortInt 16) s hs
    simp [bind_def, getData16, h', hs]
  · have h1 := readU_eq 2 (.shortInt 16) s hs
    simp only [getData16, bind_def, h1, hs, ne_eq, not_false_eq_true, true_and]
    have hl : leVal (pfx 2 (upU (s.b.unread.take 2) s.u)) =
        (asmLen16 (fun i => (s.b.unread.take 2).getD i.val (s.u i))).toNat := by
      rw [← len16_bytes, leVal_le]
      exact Nat.mod_eq_of_lt (len16_lt _)
    rw [hl]
    rw [← takeData_panic _ f { s with
      b := { s.b with pre := s.b.pre ++ s.b.unread.take 2, unread := s.b.unread.drop 2 }
      u := fun i => (s.b.unread.take 2).getD i.val (s.u i) }]
    generalize takeData _ _ _ = x
    cases x with
    | ok a s' =>
      simp only [iff_false, reduceCtorEq]
      exact safe_finish _
    | ret e s' => simp
    | panic => simp

theorem panicIff_data32 (f : Bytes → R → R) :
    PanicIff (getData32 f >>= fun _ => finish) (fun b u => b.unread ≠ [] ∧
      (b.unread.drop 4).length + b.spare.length < leVal (pfx 4 (upU (b.unread.take 4) u))) := by
  intro s
  by_cases hs : s.b.unread = []
  · obtain ⟨s', h'⟩ := readU_empty 4 (.shortInt 32) s hs
    simp [bind_def, getData32, h', hs]
  · have h1 := readU_eq 4 (.shortInt 32) s hs
    simp only [getData32, bind_def, h1, hs, ne_eq, not_false_eq_true, true_and]
    have hl : leVal (pfx 4 (upU (s.b.unread.take 4) s.u)) =
        (asmLen32 (fun i => (s.b.unread.take 4).getD i.val (s.u i))).toNat := by
      rw [← len32_bytes, leVal_le]
      exact Nat.mod_eq_of_lt (len32_lt _)
    rw [hl]
    rw [← takeData_panic _ f { s with
      b := { s.b with pre := s.b.pre ++ s.b.unread.take 4, unread := s.b.unread.drop 4 }
      u := fun i => (s.b.unread.take 4).getD i.val (s.u i) }]
    generalize takeData _ _ _ = x
    cases x with
    | ok a s' =>
      simp only [iff_false, reduceCtorEq]
      exact safe_finish _
    | ret e s' => simp
    | panic => simp

theorem run_panic {m : Dec R Unit} {Q} (h : PanicIff m Q) (zero : R) (b : Buffer) :
    Dec.run m zero b = .panic ↔ Q b (fun _ => 0) := by
  rw [← h ⟨b, fun _ => 0, 0, zero⟩]
  unfold Dec.run
  cases m ⟨b, fun _ => 0, 0, zero⟩ <;> simp

end

/-- A field of which only `fld` arrived is completed with what the scratch array held before. -/
def seen (fld prev : Bytes) : Bytes := fld ++ prev.drop fld.length

theorem pfx_upU {n : Nat} (hn : n ≤ 8) (w : Bytes) (hw : w.length ≤ n) (u : Fin 8 → Byte) :
    pfx n (upU w u) = seen w (pfx n u) := by
  apply List.ext_getElem
  · simp [pfx, seen]; omega
  · intro i h1 h2
    by_cases hi : i < w.length
    · simp only [seen]
      rw [List.getElem_append_left hi]
      simp only [pfx, List.getElem_take, List.getElem_ofFn, upU, List.getD_eq_getElem?_getD]
      simp [hi]
    · simp only [seen]
      rw [List.getElem_append_right (by omega)]
      simp only [pfx, List.getElem_take, List.getElem_ofFn, upU, List.getD_eq_getElem?_getD, List.getElem_drop]
      have : w.length + (i - w.length) = i := by omega
      simp [this, show w.length ≤ i by omega]

theorem pfx_take {n k : Nat} (hn : n ≤ k) (hk : k ≤ 8) (w : Bytes) (hw : w.length = k) (u : Fin 8 → Byte) :
    pfx n (upU w u) = w.take n := by
  have : pfx n (upU w u) = (pfx k (upU w u)).take n := by simp [pfx, List.take_take, Nat.min_eq_left hn]
  rw [this]
  show (pfx k fun i => w.getD i.val (u i)).take n = _
  rw [pfx_full hk w hw]

/-- The payload count as the decoders of the four messages with a counted payload see it, and the number
of bytes of the packet behind it.  For a packet that contains the whole count field this is that field
read little endian. -/
def payloadCount : TMsg ⊕ RMsg → Bytes → Nat
  | .inl (.write _), x => leVal (seen ((x.drop 14).take 4) ((x.drop 6).take 4))
  | .inl (.wstat _), x => leVal (seen ((x.drop 6).take 2) ((x.drop 2).take 2))
  | .inr (.read _), x => leVal (seen ((x.drop 2).take 4) (x.take 2 ++ [0, 0]))
  | .inr (.stat _), x => leVal (seen ((x.drop 2).take 2) (x.take 2))
  | _, _ => 0

theorem drop_ne_nil {x : Bytes} {n : Nat} : x.drop n ≠ [] ↔ n < x.length := by
  rw [← List.length_pos_iff, List.length_drop]; omega

theorem Twrite_panic (b : Buffer) (p) : unmarshalTwrite b = .panic ↔ 14 < b.unread.length ∧
    b.unread.length - 18 + b.spare.length < payloadCount (.inl (.write p)) b.unread := by
  have h := run_panic ((PanicIff.tag (PanicIff.u32 (fun v (r : TwritePkt) => { r with OFID := v })
    (PanicIff.u64 (fun v (r : TwritePkt) => { r with Off := v })
      (panicIff_data32 (fun v (r : TwritePkt) => { r with Data := v })))))) {} b
  refine Iff.trans h ?_
  simp only [List.drop_drop, payloadCount, drop_ne_nil, Nat.reduceAdd]
  rw [← List.length_pos_iff, List.length_drop]
  constructor
  · rintro ⟨-, -, -, h1, h2⟩
    refine ⟨h1, ?_⟩
    rw [pfx_upU (by omega) _ (by simp; omega),
      pfx_take (k := 8) (by omega) (by omega) _ (by simp; omega)] at h2
    simpa [List.take_take] using h2
  · rintro ⟨h1, h2⟩
    refine ⟨by omega, by omega, by omega, h1, ?_⟩
    rw [pfx_upU (by omega) _ (by simp; omega),
      pfx_take (k := 8) (by omega) (by omega) _ (by simp; omega)]
    simpa [List.take_take] using h2

theorem Twstat_panic (b : Buffer) (p) : unmarshalTwstat b = .panic ↔ 6 < b.unread.length ∧
    b.unread.length - 8 + b.spare.length < payloadCount (.inl (.wstat p)) b.unread := by
  have h := run_panic ((PanicIff.tag (PanicIff.u32 (fun v (r : TwstatPkt) => { r with OFID := v })
      (panicIff_data16 (fun v (r : TwstatPkt) => { r with B := v }))))) {} b
  refine Iff.trans h ?_
  simp only [List.drop_drop, payloadCount, drop_ne_nil, Nat.reduceAdd]
  rw [← List.length_pos_iff, List.length_drop]
  constructor
  · rintro ⟨-, -, h1, h2⟩
    refine ⟨h1, ?_⟩
    rw [pfx_upU (by omega) _ (by simp; omega),
      pfx_take (k := 4) (by omega) (by omega) _ (by simp; omega)] at h2
    simpa [List.take_take] using h2
  · rintro ⟨h1, h2⟩
    refine ⟨by omega, by omega, h1, ?_⟩
    rw [pfx_upU (by omega) _ (by simp; omega),
      pfx_take (k := 4) (by omega) (by omega) _ (by simp; omega)]
    simpa [List.take_take] using h2

theorem Rstat_panic (b : Buffer) (p) : unmarshalRstat b = .panic ↔ 2 < b.unread.length ∧
    b.unread.length - 4 + b.spare.length < payloadCount (.inr (.stat p)) b.unread := by
  have h := run_panic ((PanicIff.tag
      (panicIff_data16 (fun v (r : RstatPkt) => { r with B := v })))) {} b
  refine Iff.trans h ?_
  simp only [List.drop_drop, payloadCount, drop_ne_nil, Nat.reduceAdd]
  rw [← List.length_pos_iff, List.length_drop]
  constructor
  · rintro ⟨-, h1, h2⟩
    refine ⟨h1, ?_⟩
    rw [pfx_upU (by omega) _ (by simp; omega),
      pfx_take (k := 2) (by omega) (by omega) _ (by simp; omega)] at h2
    simpa [List.take_take] using h2
  · rintro ⟨h1, h2⟩
    refine ⟨by omega, h1, ?_⟩
    rw [pfx_upU (by omega) _ (by simp; omega),
      pfx_take (k := 2) (by omega) (by omega) _ (by simp; omega)]
    simpa [List.take_take] using h2

theorem Rread_panic (b : Buffer) (p) : unmarshalRread b = .panic ↔ 2 < b.unread.length ∧
    b.unread.length - 6 + b.spare.length < payloadCount (.inr (.read p)) b.unread := by
  have h := run_panic ((PanicIff.tag
      (panicIff_data32 (fun v (r : RreadPkt) => { r with Data := v })))) {} b
  refine Iff.trans h ?_
  simp only [List.drop_drop, payloadCount, drop_ne_nil, Nat.reduceAdd]
  rw [← List.length_pos_iff, List.length_drop]
  have e (hl : 2 < b.unread.length) : pfx 4 (upU (b.unread.take 2) fun _ => 0) = b.unread.take 2 ++ [0, 0] := by
    have h2 : (b.unread.take 2).length = 2 := by simp; omega
    rw [pfx_upU (by omega) _ (by omega)]
    simp only [seen, h2]
    rfl
  constructor
  · rintro ⟨-, h1, h2⟩
    refine ⟨h1, ?_⟩
    rw [pfx_upU (by omega) _ (by simp; omega), e h1] at h2
    simpa [List.take_take] using h2
  · rintro ⟨h1, h2⟩
    refine ⟨by omega, h1, ?_⟩
    rw [pfx_upU (by omega) _ (by simp; omega), e h1]
    simpa [List.take_take] using h2

/-- The number of packet bytes before the count and the payload of the four messages that carry one. -/
def payloadAt : TMsg ⊕ RMsg → Option (Nat × Nat)
  | .inl (.write _) => some (14, 4)
  | .inl (.wstat _) => some (6, 2)
  | .inr (.read _) => some (2, 4)
  | .inr (.stat _) => some (2, 2)
  | _ => none

/-- decoder by kind -/
def decAny (k : TMsg ⊕ RMsg) (b : Buffer) : Unm (TMsg ⊕ RMsg) :=
  match k with
  | .inl m => (decT m b).map .inl
  | .inr m => (decR m b).map .inr

theorem Unm.map_panic {α β : Type} (f : α → β) (u : Unm α) : u.map f = .panic ↔ u = .panic := by
  cases u <;> simp [Unm.map]

theorem decT_safe (m : TMsg) (h : payloadAt (.inl m) = none) (b : Buffer) : decT m b ≠ .panic := by
  cases m <;> simp only [payloadAt, reduceCtorEq] at h <;>
    (unfold decT; dsimp only; rw [ne_eq, Unm.map_panic])
  · exact Safe.run (safe_tag.bind fun _ => (safe_u32 _).bind fun _ => (safe_string _).bind fun _ => safe_finish) _ _
  · exact Safe.run (safe_tag.bind fun _ => (safe_u32 _).bind fun _ => (safe_u32 _).bind fun _ =>
      (safe_string _).bind fun _ => (safe_string _).bind fun _ => safe_finish) _ _
  · exact Safe.run (safe_tag.bind fun _ => (safe_u16 _).bind fun _ => safe_finish) _ _
  · exact Safe.run (safe_tag.bind fun _ => (safe_u32 _).bind fun _ => (safe_u32 _).bind fun _ =>
      (safe_strings _).bind fun _ => safe_finish) _ _
  · exact Safe.run (safe_tag.bind fun _ => (safe_u32 _).bind fun _ => (safe_u8 _).bind fun _ => safe_finish) _ _
  · exact Safe.run (safe_tag.bind fun _ => (safe_u32 _).bind fun _ => (safe_string _).bind fun _ =>
      (safe_u32 _).bind fun _ => (safe_u8 _).bind fun _ => safe_finish) _ _
  · exact Safe.run (safe_tag.bind fun _ => (safe_u32 _).bind fun _ => safe_finish) _ _
  · exact Safe.run (safe_tag.bind fun _ => (safe_u32 _).bind fun _ => safe_finish) _ _
  · exact Safe.run (safe_tag.bind fun _ => (safe_u32 _).bind fun _ => safe_finish) _ _
  · exact Safe.run (safe_tag.bind fun _ => (safe_u32 _).bind fun _ => (safe_u64 _).bind fun _ =>
      (safe_count _).bind fun _ => safe_finish) _ _

theorem decR_safe (m : RMsg) (h : payloadAt (.inr m) = none) (b : Buffer) : decR m b ≠ .panic := by
  cases m <;> simp only [payloadAt, reduceCtorEq] at h <;>
    (unfold decR; dsimp only; rw [ne_eq, Unm.map_panic])
  · exact Safe.run (safe_tag.bind fun _ => (safe_string _).bind fun _ => safe_finish) _ _
  · exact Safe.run (safe_tag.bind fun _ => (safe_u32 _).bind fun _ => (safe_string _).bind fun _ => safe_finish) _ _
  · exact Safe.run (safe_tag.bind fun _ => (safe_qid _).bind fun _ => safe_finish) _ _
  · exact Safe.run (safe_tag.bind fun _ => safe_finish) _ _
  · exact Safe.run (safe_tag.bind fun _ => (safe_qids _).bind fun _ => safe_finish) _ _
  · exact Safe.run (safe_tag.bind fun _ => (safe_qid _).bind fun _ => (safe_u32 _).bind fun _ => safe_finish) _ _
  · exact Safe.run (safe_tag.bind fun _ => (safe_qid _).bind fun _ => (safe_u32 _).bind fun _ => safe_finish) _ _
  · exact Safe.run (safe_tag.bind fun _ => safe_finish) _ _
  · exact Safe.run (safe_tag.bind fun _ => safe_finish) _ _
  · exact Safe.run (safe_tag.bind fun _ => safe_finish) _ _
  · exact Safe.run (safe_tag.bind fun _ => (safe_count _).bind fun _ => safe_finish) _ _

/-- **C11** The exact condition under which a decoder panics: never, except that the decoders of Twrite,
Twstat, Rread and Rstat panic iff the count field has been reached and the count is larger than what
is left of the packet together with the memory behind it. -/
theorem C11_panic_iff (k : TMsg ⊕ RMsg) (b : Buffer) :
    decAny k b = .panic ↔ ∃ pos w, payloadAt k = some (pos, w) ∧ pos < b.unread.length ∧
      b.unread.length - (pos + w) + b.spare.length < payloadCount k b.unread := by
  cases k with
  | inl m =>
    simp only [decAny, Unm.map_panic]
    cases hp : payloadAt (.inl m) with
    | none => simpa [hp] using decT_safe m hp b
    | some x =>
      cases m <;> simp only [payloadAt, reduceCtorEq, Option.some.injEq] at hp
      · subst hp
        simp only [decT, Unm.map_panic]
        rw [Twstat_panic b {}]
        exact ⟨fun ⟨h1, h2⟩ => ⟨_, _, rfl, h1, h2⟩, by rintro ⟨_, _, ⟨rfl, rfl⟩, h⟩; exact h⟩
      · subst hp
        simp only [decT, Unm.map_panic]
        rw [Twrite_panic b {}]
        exact ⟨fun ⟨h1, h2⟩ => ⟨_, _, rfl, h1, h2⟩, by rintro ⟨_, _, ⟨rfl, rfl⟩, h⟩; exact h⟩
  | inr m =>
    simp only [decAny, Unm.map_panic]
    cases hp : payloadAt (.inr m) with
    | none => simpa [hp] using decR_safe m hp b
    | some x =>
      cases m <;> simp only [payloadAt, reduceCtorEq, Option.some.injEq] at hp
      · subst hp
        simp only [decR, Unm.map_panic]
        rw [Rstat_panic b {}]
        exact ⟨fun ⟨h1, h2⟩ => ⟨_, _, rfl, h1, h2⟩, by rintro ⟨_, _, ⟨rfl, rfl⟩, h⟩; exact h⟩
      · subst hp
        simp only [decR, Unm.map_panic]
        rw [Rread_panic b {}]
        exact ⟨fun ⟨h1, h2⟩ => ⟨_, _, rfl, h1, h2⟩, by rintro ⟨_, _, ⟨rfl, rfl⟩, h⟩; exact h⟩

/-- **C11**, stat records: the directory entry decoder never panics. -/
theorem C11_dir_no_panic (b : Buffer) : unmarshaldir b ≠ .panic := unmarshaldir_safe b

/-- **C11**, over-read: a Twrite whose count `c` exceeds the packet, but not the packet and the memory
behind it, is accepted without error, and the bytes beyond the packet are delivered as payload. -/
theorem C11_overread (t : Tag) (f : FID) (o : Offset) (c : Nat) (hc : c < 2 ^ 32) (d pre spare : Bytes)
    (h1 : d.length < c) (h2 : c ≤ (d ++ spare).length) : ∃ b',
    unmarshalTwrite ⟨pre, le 2 t.toNat ++ (le 4 f.toNat ++ (le 8 o.toNat ++ (le 4 c ++ d))), spare⟩ =
      .done { OFID := f, Off := o, Data := (d ++ spare).take c } t none b' := by
  obtain ⟨u₁, e₁⟩ := (codes_tag (R := TwritePkt)).fwd t trivial pre
    (le 4 f.toNat ++ (le 8 o.toNat ++ (le 4 c ++ d))) spare (fun _ => 0) 0 {}
  obtain ⟨u₂, e₂⟩ := (codes_u32 (R := TwritePkt) fun v r => { r with OFID := v }).fwd f trivial
    (pre ++ le 2 t.toNat) (le 8 o.toNat ++ (le 4 c ++ d)) spare u₁ t {}
  obtain ⟨u₃, e₃⟩ := (codes_u64 (R := TwritePkt) fun v r => { r with Off := v }).fwd o trivial
    (pre ++ le 2 t.toNat ++ le 4 f.toNat) (le 4 c ++ d) spare u₂ t { OFID := f }
  obtain ⟨u₄, hu, e₄⟩ := readU_full (R := TwritePkt) (n := 4) (by omega) (.shortInt 32) (le 4 c) d
    (pre ++ le 2 t.toNat ++ le 4 f.toNat ++ le 8 o.toNat) spare u₃ t { OFID := f, Off := o } (by simp) (by omega)
  refine ⟨⟨pre ++ le 2 t.toNat ++ le 4 f.toNat ++ le 8 o.toNat ++ le 4 c ++ d, [], spare⟩, ?_⟩
  unfold unmarshalTwrite Dec.run
  rw [bind_ok e₁]
  simp only [onR] at e₂ e₃ ⊢
  rw [bind_ok e₂, bind_ok e₃, getData32, bind_def, bind_ok e₄, len32_of_pfx hc hu]
  have h3 : d.take c = d := List.take_of_length_le (by omega)
  have h4 : d.drop c = [] := List.drop_of_length_le (by omega)
  simp only [takeData, Buffer.sliceTo, h2, if_true, Buffer.next, h3, h4, finish, Buffer.len]
  rfl

example : (5 : Nat) < 2 ^ 32 ∧ ([1, 2] : Bytes).length < 5 ∧ 5 ≤ (([1, 2] : Bytes) ++ [3, 4, 5, 6]).length := by
  simp

end Ninep
