import Verif.Spec.Gen
import Verif.Lemmas.Messages
/-
What the text emitted by the generator writes, and what the generated decoders read.
-/

namespace Ninep
namespace Buffer

theorem write_nil (b : Buffer) : b.write [] = b := by simp [write]

theorem write_write (b : Buffer) (p q : Bytes) : (b.write p).write q = b.write (p ++ q) := by
  simp [write, List.drop_drop]

end Buffer

namespace Gen
open Spec Dec

/-! ### what statements write -/

section
variable {ρ : Type}

def Simple.bytes (r : ρ) (j : Nat) : Simple ρ → Bytes
  | .lit es => es.map fun e => e r j
  | .all e => e r j

def bodyBytes (r : ρ) (j : Nat) (ss : List (Simple ρ)) : Bytes := (ss.map (Simple.bytes r j)).flatten

def loopBytes (r : ρ) (ss : List (Simple ρ)) : (k j : Nat) → Bytes
  | 0, _ => []
  | k + 1, j => bodyBytes r j ss ++ loopBytes r ss k (j + 1)

def Stmt.bytes (r : ρ) : Stmt ρ → Bytes
  | .simple s => s.bytes r 0
  | .forRange n ss => loopBytes r ss (n r) 0

def allBytes (r : ρ) (ss : List (Stmt ρ)) : Bytes := (ss.map (Stmt.bytes r)).flatten

theorem Simple.exec_eq (r : ρ) (j : Nat) (s : Simple ρ) (b : Buffer) : s.exec r j b = b.write (s.bytes r j) := by
  cases s <;> rfl

theorem execBody_eq (r : ρ) (j : Nat) (ss : List (Simple ρ)) (b : Buffer) :
    execBody r j ss b = b.write (bodyBytes r j ss) := by
  induction ss generalizing b with
  | nil => simp [execBody, bodyBytes, Buffer.write_nil]
  | cons s ss ih => simp [execBody, ih, Simple.exec_eq, Buffer.write_write, bodyBytes]

theorem execLoop_eq (r : ρ) (ss : List (Simple ρ)) (k j : Nat) (b : Buffer) :
    execLoop r ss k j b = b.write (loopBytes r ss k j) := by
  induction k generalizing j b with
  | zero => simp [execLoop, loopBytes, Buffer.write_nil]
  | succ k ih => simp [execLoop, ih, execBody_eq, Buffer.write_write, loopBytes]

theorem Stmt.exec_eq (r : ρ) (s : Stmt ρ) (b : Buffer) : s.exec r b = b.write (s.bytes r) := by
  cases s with
  | simple s => exact Simple.exec_eq r 0 s b
  | forRange n ss => exact execLoop_eq r ss _ _ b

theorem execAll_eq (r : ρ) (ss : List (Stmt ρ)) (b : Buffer) : execAll r ss b = b.write (allBytes r ss) := by
  induction ss generalizing b with
  | nil => simp [execAll, allBytes, Buffer.write_nil]
  | cons s ss ih => simp [execAll, ih, Stmt.exec_eq, Buffer.write_write, allBytes]

/-! ### emission -/

/-- what has been written when the text ends here (in a loop: in the present round) -/
def PSt.cur (st : PSt ρ) (r : ρ) (j : Nat) : Bytes :=
  (match st.f with
    | none => allBytes r st.done
    | some (_, ss) => bodyBytes r j ss) ++
  (match st.w with
    | none => []
    | some es => es.map fun e => e r j)

/-- in the same loop, or outside of loops -/
def SameLoop (st st' : PSt ρ) : Prop :=
  match st.f with
  | none => st'.f = none
  | some (n, _) => st'.done = st.done ∧ ∃ ss, st'.f = some (n, ss)

theorem SameLoop.refl (st : PSt ρ) : SameLoop st st := by
  unfold SameLoop
  split
  · assumption
  · exact ⟨rfl, _, by assumption⟩

theorem SameLoop.trans {a b c : PSt ρ} (h : SameLoop a b) (h' : SameLoop b c) : SameLoop a c := by
  unfold SameLoop at *
  cases ha : a.f with
  | none => rw [ha] at h; rw [h] at h'; exact h'
  | some p =>
    rw [ha] at h
    obtain ⟨hd, ss, hs⟩ := h
    rw [hs] at h'
    exact ⟨h'.1.trans hd, h'.2⟩

/-- the text emitted so far is `code`; it has been read up to `st` -/
def At (st0 : PSt ρ) (e : Em ρ) (st : PSt ρ) : Prop :=
  psteps st0 e.code = some st ∧ st.w.isSome = e.inBWrite

/-- `g` emits text that writes `out`, anywhere -/
def Emits (g : Em ρ → Em ρ) (out : ρ → Nat → Bytes) : Prop :=
  ∀ st0 e st, At st0 e st → ∃ st', At st0 (g e) st' ∧ SameLoop st st' ∧
    ∀ r j, (st.f = none → j = 0) → st'.cur r j = st.cur r j ++ out r j

/-- the same outside of loops -/
def EmitsTop (g : Em ρ → Em ρ) (out : ρ → Bytes) : Prop :=
  ∀ st0 e st, At st0 e st → st.f = none → ∃ st', At st0 (g e) st' ∧ st'.f = none ∧
    ∀ r, st'.cur r 0 = st.cur r 0 ++ out r

theorem Emits.top {g : Em ρ → Em ρ} {out : ρ → Nat → Bytes} (h : Emits g out) : EmitsTop g fun r => out r 0 := by
  intro st0 e st ha hf
  obtain ⟨st', h1, h2, h3⟩ := h st0 e st ha
  refine ⟨st', h1, ?_, fun r => h3 r 0 fun _ => rfl⟩
  unfold SameLoop at h2
  rw [hf] at h2
  exact h2

theorem Emits.comp {g g' : Em ρ → Em ρ} {out out' : ρ → Nat → Bytes} (h : Emits g out) (h' : Emits g' out') :
    Emits (fun e => g' (g e)) fun r j => out r j ++ out' r j := by
  intro st0 e st ha
  obtain ⟨st₁, h1, h2, h3⟩ := h st0 e st ha
  obtain ⟨st₂, h4, h5, h6⟩ := h' st0 _ st₁ h1
  refine ⟨st₂, h4, h2.trans h5, fun r j hj => ?_⟩
  have : st₁.f = none → j = 0 := by
    intro hn
    apply hj
    unfold SameLoop at h2
    cases hf : st.f with
    | none => rfl
    | some p => rw [hf] at h2; obtain ⟨-, ss, hs⟩ := h2; rw [hs] at hn; cases hn
  rw [h6 r j this, h3 r j hj, List.append_assoc]

theorem EmitsTop.comp {g g' : Em ρ → Em ρ} {out out' : ρ → Bytes} (h : EmitsTop g out) (h' : EmitsTop g' out') :
    EmitsTop (fun e => g' (g e)) fun r => out r ++ out' r := by
  intro st0 e st ha hf
  obtain ⟨st₁, h1, h2, h3⟩ := h st0 e st ha hf
  obtain ⟨st₂, h4, h5, h6⟩ := h' st0 _ st₁ h1 h2
  exact ⟨st₂, h4, h5, fun r => by rw [h6, h3, List.append_assoc]⟩

theorem psteps_put (st0 : PSt ρ) (code : List (Tok ρ)) (t : Tok ρ) (st : PSt ρ) (h : psteps st0 code = some st) :
    psteps st0 (code ++ [t]) = pstep st t := by
  unfold psteps at *
  rw [List.foldlM_append, h]
  simp

/-- make sure that a `b.Write([]byte{` is open -/
theorem emits_begin : Emits (ρ := ρ) Em.begin fun _ _ => [] := by
  intro st0 e st ⟨h1, h2⟩
  unfold Em.begin
  by_cases hw : e.inBWrite = true
  · rw [if_pos hw]
    exact ⟨st, ⟨h1, h2⟩, SameLoop.refl st, by simp⟩
  · rw [if_neg hw]
    have hn : st.w = none := by
      cases hx : st.w with
      | none => rfl
      | some es => rw [hx] at h2; exact absurd h2.symm hw
    refine ⟨{ st with w := some [] }, ⟨?_, rfl⟩, ?_, ?_⟩
    · simp only [Em.put]
      rw [psteps_put _ _ _ _ h1]
      simp [pstep, hn]
    · unfold SameLoop
      split
      · assumption
      · exact ⟨rfl, _, by assumption⟩
    · intro r j _
      simp [PSt.cur, hn]

/-- one element of the literal -/
theorem emits_byte (x : ρ → Nat → Byte) : Emits (fun e => e.begin.put (.byte x)) fun r j => [x r j] := by
  intro st0 e st ha
  obtain ⟨st₁, ⟨h1, h2⟩, h3, h4⟩ := emits_begin st0 e st ha
  have hb : e.begin.inBWrite = true := by
    unfold Em.begin
    by_cases hw : e.inBWrite = true
    · rw [if_pos hw]; exact hw
    · rw [if_neg hw]
  rw [hb] at h2
  obtain ⟨es, hes⟩ := Option.isSome_iff_exists.1 h2
  refine ⟨{ st₁ with w := some (es ++ [x]) }, ⟨?_, ?_⟩, h3.trans ?_, ?_⟩
  · simp only [Em.put]
    rw [psteps_put _ _ _ _ h1]
    simp [pstep, hes]
  · simp [Em.put, hb]
  · unfold SameLoop
    split
    · assumption
    · exact ⟨rfl, _, by assumption⟩
  · intro r j hj
    have := h4 r j hj
    simp only [PSt.cur, hes, List.append_nil] at this ⊢
    rw [← this]
    simp

theorem emits_bytes (n : ρ → Nat → Nat → Byte) (k i : Nat) :
    Emits (emitBytes n k i) fun r j => (List.range' i k).map (n r j) := by
  induction k generalizing i with
  | zero => intro st0 e st ha; exact ⟨st, ha, SameLoop.refl st, by simp⟩
  | succ k ih =>
    have := (emits_byte fun r j => n r j i).comp (ih (i + 1))
    intro st0 e st ha
    obtain ⟨st', h1, h2, h3⟩ := this st0 e st ha
    exact ⟨st', h1, h2, fun r j hj => by rw [h3 r j hj]; simp [List.range'_succ]⟩

theorem Emits.congr {g : Em ρ → Em ρ} {out out' : ρ → Nat → Bytes} (h : Emits g out) (ho : ∀ r j, out r j = out' r j) :
    Emits g out' := by
  have : out = out' := by funext r j; exact ho r j
  exact this ▸ h

theorem emits_int (n : ρ → Nat → Nat → Byte) (l : Nat) (out : ρ → Nat → Bytes)
    (h : ∀ r j, (List.range l).map (n r j) = out r j) : Emits (emitEncodeInt n l) out :=
  (emits_bytes n l 0).congr fun r j => by rw [← h r j, List.range_eq_range']

theorem emits_u8 (n : ρ → Nat → UInt8) : Emits (emitEncodeInt (shr8 n) 1) fun r j => le 1 (n r j).toNat :=
  emits_int _ _ _ fun r j => by rw [← put8_eq]; rfl

theorem emits_u16 (n : ρ → Nat → UInt16) : Emits (emitEncodeInt (shr16 n) 2) fun r j => le 2 (n r j).toNat :=
  emits_int _ _ _ fun r j => by rw [← put16_eq]; simp [List.range_succ, shr16, put16]

theorem emits_u32 (n : ρ → Nat → UInt32) : Emits (emitEncodeInt (shr32 n) 4) fun r j => le 4 (n r j).toNat :=
  emits_int _ _ _ fun r j => by rw [← put32_eq]; simp [List.range_succ, shr32, put32]

theorem emits_i32 (n : ρ → Nat → Int32) : Emits (emitEncodeInt (shrI32 n) 4) fun r j => le 4 (n r j).toUInt32.toNat :=
  emits_int _ _ _ fun r j => by rw [← putCount_eq]; rfl

theorem emits_u64 (n : ρ → Nat → UInt64) : Emits (emitEncodeInt (shr64 n) 8) fun r j => le 8 (n r j).toNat :=
  emits_int _ _ _ fun r j => by rw [← put64_eq]; simp [List.range_succ, shr64, put64]

theorem emits_len16 (n : ρ → Nat → Nat) : Emits (emitEncodeInt (lenByte n) 2) fun r j => le 2 (n r j) :=
  emits_int _ _ _ fun r j => by rw [← putLen16_eq]; simp [List.range_succ, lenByte, putLen16]

theorem emits_len32 (n : ρ → Nat → Nat) : Emits (emitEncodeInt (lenByte n) 4) fun r j => le 4 (n r j) :=
  emits_int _ _ _ fun r j => by rw [← putLen32_eq]; simp [List.range_succ, lenByte, putLen32]

/-- close the literal that is open -/
theorem at_close {st0 : PSt ρ} {e : Em ρ} {st : PSt ρ} (h : At st0 e st) (hw : e.inBWrite = true) :
    ∃ st', At st0 { e.put .close with inBWrite := false } st' ∧ SameLoop st st' ∧ st'.w = none ∧
      ∀ r j, (st.f = none → j = 0) → st'.cur r j = st.cur r j := by
  obtain ⟨h1, h2⟩ := h
  rw [hw] at h2
  obtain ⟨es, hes⟩ := Option.isSome_iff_exists.1 h2
  refine ⟨st.add (.lit es), ⟨?_, ?_⟩, ?_, ?_, ?_⟩
  · simp only [Em.put]
    rw [psteps_put _ _ _ _ h1]
    simp [pstep, hes]
  · unfold PSt.add; split <;> rfl
  · unfold PSt.add SameLoop; split <;> simp_all
  · unfold PSt.add; split <;> rfl
  · intro r j hj
    unfold PSt.add PSt.cur
    cases hf : st.f with
    | none => simp [hes, allBytes, Stmt.bytes, Simple.bytes, hj hf]
    | some p => simp [hes, bodyBytes, Simple.bytes]

/-- `b.Write(x)` -/
theorem at_write {st0 : PSt ρ} {e : Em ρ} {st : PSt ρ} (h : At st0 e st) (hw : e.inBWrite = false) (x : ρ → Nat → Bytes) :
    ∃ st', At st0 (e.put (.write x)) st' ∧ SameLoop st st' ∧
      ∀ r j, (st.f = none → j = 0) → st'.cur r j = st.cur r j ++ x r j := by
  obtain ⟨h1, h2⟩ := h
  rw [hw] at h2
  have hn : st.w = none := by
    cases hx : st.w with
    | none => rfl
    | some es => rw [hx] at h2; cases h2
  refine ⟨st.add (.all x), ⟨?_, ?_⟩, ?_, ?_⟩
  · simp only [Em.put]
    rw [psteps_put _ _ _ _ h1]
    simp [pstep, hn]
  · rw [Em.put]
    unfold PSt.add; split <;> simp [hw]
  · unfold PSt.add SameLoop; split <;> simp_all
  · intro r j hj
    unfold PSt.add PSt.cur
    cases hf : st.f with
    | none => simp [hn, allBytes, Stmt.bytes, Simple.bytes, hj hf]
    | some p => simp [hn, bodyBytes, Simple.bytes]

theorem SameLoop.none_iff {st st' : PSt ρ} (h : SameLoop st st') : st'.f = none ↔ st.f = none := by
  unfold SameLoop at h
  cases hf : st.f with
  | none => rw [hf] at h; simp [h]
  | some p => rw [hf] at h; obtain ⟨-, ss, hs⟩ := h; simp [hs]

theorem emits_string (n : ρ → Nat → GoString) : Emits (emitEncodeString n) fun r j => str (n r j) := by
  intro st0 e st ha
  obtain ⟨st₁, h1, h2, h3⟩ := ((emits_byte (ρ := ρ) fun r j => lenByte (fun r j => (n r j).length) r j 0).comp
    (emits_byte fun r j => lenByte (fun r j => (n r j).length) r j 1)) st0 e st ha
  have hb : ∀ (e : Em ρ), e.begin.inBWrite = true := by
    intro e
    unfold Em.begin
    by_cases hw : e.inBWrite = true
    · rw [if_pos hw]; exact hw
    · rw [if_neg hw]
  have hbb : ∀ (e : Em ρ) t, (e.begin.put t).begin = e.begin.put t := by
    intro e t
    have : (e.begin.put t).inBWrite = true := hb e
    generalize e.begin.put t = e' at *
    unfold Em.begin
    rw [if_pos this]
  simp only [hbb] at h1
  obtain ⟨st₂, h4, h5, -, h6⟩ := at_close h1 (hb e)
  obtain ⟨st₃, h7, h8, h9⟩ := at_write h4 rfl n
  refine ⟨st₃, h7, (h2.trans h5).trans h8, fun r j hj => ?_⟩
  rw [h9 r j (fun h => hj ((h2.trans h5).none_iff.1 h)), h6 r j (fun h => hj (h2.none_iff.1 h)), h3 r j hj]
  simp [str, ← putLen16_eq, putLen16, lenByte]

/-- `if e.inBWrite { close }` -/
theorem emits_end : Emits (ρ := ρ) Em.end_ fun _ _ => [] := by
  intro st0 e st ha
  unfold Em.end_
  by_cases hw : e.inBWrite = true
  · rw [if_pos hw]
    obtain ⟨st', h1, h2, -, h3⟩ := at_close ha hw
    exact ⟨st', h1, h2, fun r j hj => by rw [h3 r j hj, List.append_nil]⟩
  · rw [if_neg hw]
    exact ⟨st, ha, SameLoop.refl st, by simp⟩

theorem end_inBWrite (e : Em ρ) : e.end_.inBWrite = false := by
  unfold Em.end_
  by_cases hw : e.inBWrite = true
  · rw [if_pos hw]
  · rw [if_neg hw]; simpa using hw

theorem At.w_none {st0 : PSt ρ} {e : Em ρ} {st : PSt ρ} (h : At st0 e st) (hw : e.inBWrite = false) : st.w = none := by
  cases hx : st.w with
  | none => rfl
  | some es => have := h.2; rw [hx, hw] at this; cases this

theorem emits_data (k : Nat) (n : ρ → Nat → Bytes) (lenOk : Emits (emitEncodeInt (lenByte fun r j => (n r j).length) k)
    fun r j => le k (n r j).length) : Emits (genEncodeBytes k n) fun r j => le k (n r j).length ++ n r j := by
  intro st0 e st ha
  obtain ⟨st₁, h1, h2, h3⟩ := (lenOk.comp emits_end) st0 e st ha
  obtain ⟨st₂, h4, h5, h6⟩ := at_write h1 (end_inBWrite _) n
  refine ⟨st₂, h4, h2.trans h5, fun r j hj => ?_⟩
  rw [h6 r j (fun h => hj (h2.none_iff.1 h)), h3 r j hj]
  simp

theorem loop_out {α : Type} (r : ρ) (body : List (Simple ρ)) (enc : α → Bytes) (d : α) (xs : List α)
    (h : ∀ j, bodyBytes r j body = enc (xs.getD j d)) (k i : Nat) (hk : i + k = xs.length) :
    loopBytes r body k i = ((xs.drop i).map enc).flatten := by
  induction k generalizing i with
  | zero => rw [List.drop_eq_nil_of_le (by omega)]; rfl
  | succ k ih =>
    rw [loopBytes, ih (i + 1) (by omega), h]
    have hi : i < xs.length := by omega
    rw [List.drop_eq_getElem_cons hi, List.map_cons, List.flatten_cons]
    simp [hi]

/-- a loop over the elements of a list -/
theorem emits_loop {α : Type} (d : α) (n : ρ → Nat → List α) (enc : α → Bytes) (g : Em ρ → Em ρ)
    (hg : Emits g fun r j => enc (elem d n r j)) (hw : ∀ e, (g e).inBWrite = false) (hn : ∀ r j, n r j = n r 0) :
    EmitsTop (fun e => (g (Em.put e.end_ (.forRange fun r => (n r 0).length))).put .endFor)
      fun r => ((n r 0).map enc).flatten := by
  intro st0 e st ha hf
  obtain ⟨st₁, h1, h2, h3⟩ := emits_end.top st0 e st ha hf
  have hw1 : st₁.w = none := h1.w_none (end_inBWrite e)
  have h4 : At st0 (Em.put e.end_ (.forRange fun r => (n r 0).length))
      { st₁ with f := some (fun r => (n r 0).length, []) } := by
    refine ⟨?_, ?_⟩
    · simp only [Em.put]
      rw [psteps_put _ _ _ _ h1.1]
      simp [pstep, hw1, h2]
    · simp [Em.put, hw1, end_inBWrite]
  obtain ⟨st₂, h5, h6, h7⟩ := hg st0 _ _ h4
  obtain ⟨hd, ss, hs⟩ : st₂.done = st₁.done ∧ ∃ ss, st₂.f = some (fun r => (n r 0).length, ss) := h6
  have hw2 : st₂.w = none := h5.w_none (hw _)
  have hbody : ∀ r j, bodyBytes r j ss = enc ((n r 0).getD j d) := by
    intro r j
    have := h7 r j (by simp)
    simp only [PSt.cur, hs, hw2, hw1, List.append_nil, elem, bodyBytes, List.map_nil, List.flatten_nil,
      List.nil_append] at this
    rw [bodyBytes, this, hn]
  refine ⟨{ st₂ with done := st₂.done ++ [.forRange (fun r => (n r 0).length) ss], f := none }, ⟨?_, ?_⟩, rfl, ?_⟩
  · rw [show (Em.put (g (Em.put e.end_ (.forRange fun r => (n r 0).length))) .endFor).code =
      (g (Em.put e.end_ (.forRange fun r => (n r 0).length))).code ++ [.endFor] from rfl, psteps_put _ _ _ _ h5.1]
    simp [pstep, hw2, hs]
  · simp [Em.put, hw2, hw]
  · intro r
    have h8 := h3 r
    simp only [PSt.cur, h2, hw1, List.append_nil] at h8
    simp only [PSt.cur, hw2, List.append_nil, hd, allBytes, List.map_append, List.flatten_append, List.map_cons,
      List.map_nil, List.flatten_cons, List.flatten_nil, Stmt.bytes] at h8 ⊢
    rw [h8, loop_out r ss enc d (n r 0) (hbody r) _ 0 (by simp)]
    simp [hf]

theorem emits_qid (n : ρ → Nat → QidVal) : Emits (encodeQID n) fun r j =>
    le 1 (n r j).1.toNat ++ le 4 (n r j).2.1.toNat ++ le 8 (n r j).2.2.1.toNat :=
  ((emits_u8 _).comp (emits_u32 _)).comp (emits_u64 _)

theorem bytes_inBWrite (n : ρ → Nat → Nat → Byte) (k i : Nat) (e : Em ρ) (h : 0 < k) : (emitBytes n k i e).inBWrite = true := by
  induction k generalizing i e with
  | zero => omega
  | succ k ih =>
    rw [emitBytes]
    cases k with
    | zero =>
      simp only [emitBytes, Em.put, Em.begin]
      by_cases hw : e.inBWrite = true
      · rw [if_pos hw]; exact hw
      · rw [if_neg hw]
    | succ k => exact ih _ _ (by omega)

/-- the `})` that `genEncodeSlice` writes after a QID -/
theorem emits_qid_close (n : ρ → Nat → QidVal) :
    Emits (fun e => { (encodeQID n e).put .close with inBWrite := false }) fun r j =>
    le 1 (n r j).1.toNat ++ le 4 (n r j).2.1.toNat ++ le 8 (n r j).2.2.1.toNat := by
  intro st0 e st ha
  obtain ⟨st₁, h1, h2, h3⟩ := emits_qid n st0 e st ha
  obtain ⟨st₂, h4, h5, -, h6⟩ := at_close h1 (bytes_inBWrite _ _ _ _ (by omega))
  exact ⟨st₂, h4, h2.trans h5, fun r j hj => by rw [h6 r j (fun h => hj (h2.none_iff.1 h)), h3 r j hj]⟩

end

mutual
/-- The text emitted for a field writes the field. -/
theorem emits_ty {ρ : Type} : (t : Ty) → (n : ρ → Nat → t.Val) → (∀ r j, n r j = n r 0) →
    EmitsTop (genEncodeData t n) fun r => wire t (n r 0)
  | .uint8, n, _ => (emits_u8 n).top
  | .uint16, n, _ => (emits_u16 n).top
  | .uint32, n, _ => (emits_u32 n).top
  | .int32, n, _ => (emits_i32 n).top
  | .uint64, n, _ => (emits_u64 n).top
  | .string, n, _ => (emits_string n).top
  | .struct fs, n, h => emits_fields fs n h
  | .strings, n, h =>
    (emits_len16 fun r j => List.length (n r j)).top.comp
      (emits_loop [] n str _ (emits_string _) (fun _ => rfl) h)
  | .qids, n, h =>
    (emits_len16 fun r j => List.length (n r j)).top.comp
      (emits_loop (0, 0, 0, ()) n (fun q => le 1 q.1.toNat ++ le 4 q.2.1.toNat ++ le 8 q.2.2.1.toNat) _
        (emits_qid_close _) (fun _ => rfl) h)
  | .bytes, n, _ => (emits_data 4 n (emits_len32 _)).top
  | .dataCnt16, n, _ => (emits_data 2 n (emits_len16 _)).top
  | .other, _, _ => fun _ _ st ha hf => ⟨st, ha, hf, by simp [wire]⟩
theorem emits_fields {ρ : Type} : (fs : Fields) → (n : ρ → Nat → fs.Val) → (∀ r j, n r j = n r 0) →
    EmitsTop (genEncodeStruct fs n) fun r => wireFields fs (n r 0)
  | .nil, _, _ => fun _ _ st ha hf => ⟨st, ha, hf, by simp [wireFields]⟩
  | .cons t fs, n, h =>
    (emits_ty t (fun r j => (n r j).1) (fun r j => by rw [h r j])).comp
      (emits_fields fs (fun r j => (n r j).2) (fun r j => by rw [h r j]))
end

theorem parse_append {ρ : Type} (pro code : List (Tok ρ)) (st0 st : PSt ρ) (h0 : psteps {} pro = some st0)
    (h : psteps st0 code = some st) (hf : st.f = none) :
    parse (pro ++ code) = if st.w.isSome then none else some st.done := by
  have : psteps {} (pro ++ code) = some st := by
    unfold psteps at *
    rw [List.foldlM_append, h0]
    exact h
  unfold parse
  rw [this]
  simp only [hf]
  cases st.w <;> rfl

/-- the encoder of a packet -/
theorem genMarshal_eq (ty : MType) (fs : Fields) (b : Buffer) (t : Tag) (v : fs.Val) :
    genMarshal ty fs b t v = some (encoded b (packet ty.toNat (le 2 t.toNat ++ wireFields fs v))) := by
  let st0 : PSt (Tag × fs.Val) := { w := some [fun _ _ => 0, fun _ _ => 0, fun _ _ => 0, fun _ _ => 0, fun _ _ => ty,
    fun r _ => r.1.toUInt8, fun r _ => (r.1 >>> 8).toUInt8] }
  obtain ⟨st, h1, h2, h3⟩ := ((emits_fields fs (fun (r : Tag × fs.Val) _ => r.2) (fun _ _ => rfl)).comp emits_end.top)
    st0 { inBWrite := true } st0 ⟨rfl, rfl⟩ rfl
  have hw : st.w = none := h1.w_none (end_inBWrite _)
  have hp := parse_append (ρ := Tag × fs.Val) [.open_, .byte fun _ _ => 0, .byte fun _ _ => 0, .byte fun _ _ => 0,
    .byte fun _ _ => 0, .byte fun _ _ => ty, .byte fun r _ => r.1.toUInt8, .byte fun r _ => (r.1 >>> 8).toUInt8]
    _ st0 st rfl h1.1 h2
  rw [hw] at hp
  have hp : parse (packetCode ty fs) = some st.done := hp
  unfold genMarshal
  rw [hp]
  have hc := h3 (t, v)
  simp only [PSt.cur, h2, hw, List.append_nil] at hc
  have hb : allBytes (t, v) st.done = 0 :: 0 :: 0 :: 0 :: ty :: (le 2 t.toNat ++ wireFields fs v) := by
    rw [hc, ← put16_eq]
    simp [st0, allBytes, put16]
  simp only [execAll_eq, hb, Buffer.write, Buffer.reset, List.nil_append, patchSize_eq]
  simp only [encoded, packet, Option.some.injEq, Buffer.mk.injEq, true_and]
  have hl : le 1 ty.toNat = [ty] := by simp [le]
  rw [hl]
  refine ⟨by simp, ?_⟩
  congr 1

/-! ### decoders -/

theorem bind_assoc' {R α β γ : Type} (m : Dec R α) (f : α → Dec R β) (g : β → Dec R γ) :
    ((m >>= f) >>= g) = (m >>= fun a => f a >>= g) := by
  funext s
  simp only [bind_def]
  cases m s <;> rfl

theorem pure_bind' {R α β : Type} (a : α) (f : α → Dec R β) : ((pure a : Dec R α) >>= f) = f a := rfl

theorem bind_pure' {R : Type} (m : Dec R Unit) : (m >>= fun _ => (pure () : Dec R Unit)) = m := by
  funext s
  simp only [bind_def]
  cases m s <;> rfl

/-- two of the laws of a decoder block (those that also empty structs obey) -/
structure Law {R α : Type} (m : Dec R Unit) (P : α → Prop) (enc : α → Bytes) (set : α → Tag × R → Tag × R) : Prop where
  fwd : ∀ v, P v → ∀ pre rest spare u t r, ∃ u',
    m ⟨⟨pre, enc v ++ rest, spare⟩, u, t, r⟩ =
      .ok () ⟨⟨pre ++ enc v, rest, spare⟩, u', (set v (t, r)).1, (set v (t, r)).2⟩
  inv : ∀ s s', m s = .ok () s' → ∃ v, P v ∧ (s'.t, s'.r) = set v (s.t, s.r) ∧
    Canon s.b.unread (enc v) s'.b.unread

theorem law {R α : Type} {m : Dec R Unit} {P : α → Prop} {enc : α → Bytes} {set : α → Tag × R → Tag × R} {slack}
    (h : Codes m P enc set slack) : Law m P enc set := ⟨h.fwd, h.inv⟩

theorem Law.seq {R α β : Type} {m₁ m₂ : Dec R Unit} {P₁ : α → Prop} {P₂ : β → Prop} {e₁ e₂ s₁ s₂}
    (h₁ : Law m₁ P₁ e₁ s₁) (h₂ : Law m₂ P₂ e₂ s₂) :
    Law (m₁ >>= fun _ => m₂) (fun v : α × β => P₁ v.1 ∧ P₂ v.2) (fun v => e₁ v.1 ++ e₂ v.2)
      (fun v tr => s₂ v.2 (s₁ v.1 tr)) where
  fwd := by
    rintro ⟨a, b⟩ ⟨ha, hb⟩ pre rest spare u t r
    obtain ⟨u₁, hu₁⟩ := h₁.fwd a ha pre (e₂ b ++ rest) spare u t r
    obtain ⟨u₂, hu₂⟩ := h₂.fwd b hb (pre ++ e₁ a) rest spare u₁ (s₁ a (t, r)).1 (s₁ a (t, r)).2
    refine ⟨u₂, ?_⟩
    simp only [List.append_assoc] at hu₁ hu₂ ⊢
    rw [bind_ok hu₁, hu₂]
  inv := by
    intro s s' h
    obtain ⟨_, s₁', h1, h2⟩ := bind_eq_ok h
    obtain ⟨a, ha, hsa, hca⟩ := h₁.inv _ _ h1
    obtain ⟨b, hb, hsb, hcb⟩ := h₂.inv _ _ h2
    exact ⟨(a, b), ⟨ha, hb⟩, by rw [hsb, hsa], hca.trans hcb⟩

theorem Law.congr {R α : Type} {m : Dec R Unit} {P P' : α → Prop} {enc enc' : α → Bytes} {set set' : α → Tag × R → Tag × R}
    (h : Law m P enc set) (hP : ∀ v, P v ↔ P' v) (he : ∀ v, enc v = enc' v) (hs : ∀ v tr, set v tr = set' v tr) :
    Law m P' enc' set' := by
  have h1 : P = P' := by funext v; exact propext (hP v)
  have h2 : enc = enc' := by funext v; exact he v
  have h3 : set = set' := by funext v tr; exact hs v tr
  exact h1 ▸ h2 ▸ h3 ▸ h

/-- a name for a variable: changes compose -/
structure Lens {V R : Type} (n : (V → V) → R → R) : Prop where
  comp : ∀ f g r, n f (n g r) = n (fun x => f (g x)) r
  id : ∀ r, n (fun x => x) r = r

theorem law_qid {R : Type} (n : (QidVal → QidVal) → R → R) (hn : ∀ f g r, n f (n g r) = n (fun x => f (g x)) r) :
    Codes (decodeQID n) (fun _ => True) (fun q : QidVal => le 1 q.1.toNat ++ le 4 q.2.1.toNat ++ le 8 q.2.2.1.toNat)
      (onR fun v => n fun _ => v) (fun _ => intSlack 8) := by
  unfold decodeQID
  simp only [bind_pure']
  refine ((codes_u8 _).seq ((codes_u32 _).seq (codes_u64 _))).map
    (to := fun v => (v.1, v.2.1, v.2.2, ())) (of := fun q => (q.1, q.2.1, q.2.2.1)) (fun _ => rfl) ?_ ?_ ?_ ?_
  · simp
  · intro q; simp
  · intro q tr; simp [onR, hn]
  · intro q k _ h; exact h

theorem law_qids {R : Type} (n : (List QidVal → List QidVal) → R → R) (hn : Lens n) :
    Law (genDecodeData .qids n) (Ty.Fits .qids) (wire .qids) (onR fun v => n fun _ => v) := by
  have hb : ∀ i, Codes (R := R) (decodeQID fun f => n fun xs => xs.modify i f) (fun _ => True)
      (fun q : QidVal => le 1 q.1.toNat ++ le 4 q.2.1.toNat ++ le 8 q.2.2.1.toNat)
      (onR fun v => n fun xs => xs.set i v) (fun _ => intSlack 8) := by
    intro i
    have := law_qid (R := R) (fun f => n fun xs => xs.modify i f) (by
      intro f g r
      rw [hn.comp]
      congr 1
      funext xs
      rw [List.modify_modify_eq]; rfl)
    have e (v : QidVal) (xs : List QidVal) : xs.modify i (fun _ => v) = xs.set i v := by
      apply List.ext_getElem?
      intro j
      rw [List.getElem?_modify, List.getElem?_set]
      by_cases h : i = j <;> by_cases h2 : j < xs.length <;> simp [h, h2]
    simpa only [e] using this
  exact (law (codes_list (0, 0, 0, ()) hn.comp hn.id hb)).congr (fun v => by simp [Ty.Fits]) (fun v => rfl) (fun _ _ => rfl)

theorem law_cast {R α : Type} {m : Dec R Unit} {P P' : α → Prop} {enc enc' : α → Bytes} {set : α → Tag × R → Tag × R}
    (h : Law m P enc set) (hP : ∀ v, P v ↔ P' v) (he : ∀ v, enc v = enc' v) : Law m P' enc' set :=
  h.congr hP he fun _ _ => rfl

mutual
/-- The statements generated for a field read the field. -/
theorem law_ty {R : Type} : (t : Ty) → t.Supported → (n : (t.Val → t.Val) → R → R) → Lens n →
    Law (genDecodeData t n) t.Fits (wire t) (onR fun v => n fun _ => v)
  | .uint8, _, n, _ => law_cast (law (codes_u8 fun (v : UInt8) => n fun _ => v)) (fun _ => Iff.rfl) fun _ => rfl
  | .uint16, _, n, _ => law_cast (law (codes_u16 fun (v : UInt16) => n fun _ => v)) (fun _ => Iff.rfl) fun _ => rfl
  | .uint32, _, n, _ => law_cast (law (codes_u32 fun (v : UInt32) => n fun _ => v)) (fun _ => Iff.rfl) fun _ => rfl
  | .int32, _, n, _ => law_cast (law (codes_count fun (v : Int32) => n fun _ => v)) (fun _ => Iff.rfl) fun _ => rfl
  | .uint64, _, n, _ => law_cast (law (codes_u64 fun (v : UInt64) => n fun _ => v)) (fun _ => Iff.rfl) fun _ => rfl
  | .string, _, n, _ => law_cast (law (codes_string fun (v : GoString) => n fun _ => v)) (fun _ => Iff.rfl) fun _ => rfl
  | .struct fs, h, n, hn => law_fields fs h n hn
  | .strings, _, n, hn => law (codes_strings n hn.comp hn.id)
  | .qids, _, n, hn => law_qids n hn
  | .bytes, _, n, _ => law_cast (law (codes_data32 fun (v : Bytes) => n fun _ => v)) (fun _ => Iff.rfl) fun _ => rfl
  | .dataCnt16, _, n, _ => law_cast (law (codes_data16 fun (v : Bytes) => n fun _ => v)) (fun _ => Iff.rfl) fun _ => rfl
  | .other, h, _, _ => h.elim
theorem law_fields {R : Type} : (fs : Fields) → fs.Supported → (n : (fs.Val → fs.Val) → R → R) → Lens n →
    Law (genDecodeStruct fs n) fs.Fits (wireFields fs) (onR fun v => n fun _ => v)
  | .nil, _, n, hn => by
    have hi : ∀ v : Unit, ∀ r, n (fun _ => v) r = r := fun _ r => hn.id r
    refine ⟨fun v _ pre rest spare u t r => ⟨u, ?_⟩, fun s s' h => ?_⟩
    · simp only [wireFields, onR, List.nil_append, List.append_nil]
      exact congrArg (fun x => DRes.ok () ⟨⟨pre, rest, spare⟩, u, t, x⟩) (hi v r).symm
    · injection h with _ h
      subst h
      refine ⟨(), trivial, ?_, Or.inl rfl⟩
      exact congrArg (fun x => (s.t, x)) (hi () s.r).symm
  | .cons t fs, h, n, hn => by
    refine (Law.seq (law_ty t h.1 (fun f => n fun v => (f v.1, v.2)) ⟨fun f g r => hn.comp _ _ r, fun r => hn.id r⟩)
      (law_fields fs h.2 (fun f => n fun v => (v.1, f v.2)) ⟨fun f g r => hn.comp _ _ r, fun r => hn.id r⟩)).congr
      (fun v => Iff.rfl) (fun v => rfl) (fun v tr => ?_)
    exact congrArg (fun x => (tr.1, x)) (hn.comp _ _ tr.2)
end

theorem genUnmarshal_law (fs : Fields) (h : fs.Supported) :
    Law (R := fs.Val) (do getTag; genDecodeStruct fs fun f => f) (fun v : Tag × fs.Val => True ∧ fs.Fits v.2)
      (fun v => le 2 v.1.toNat ++ wireFields fs v.2) (fun v _ => v) :=
  ((law codes_tag).seq (law_fields fs h (fun f => f) ⟨fun _ _ _ => rfl, fun _ => rfl⟩)).congr
    (fun _ => Iff.rfl) (fun _ => rfl) (fun _ _ => rfl)


/-- what the template around the fields adds -/
theorem genUnmarshalBody_eq {R : Type} (fs : Fields) (n : (fs.Val → fs.Val) → R → R) :
    genUnmarshalBody fs n = ((getTag >>= fun _ => genDecodeStruct fs n) >>= fun _ => finish) := by
  rw [bind_assoc']; rfl

end Gen
end Ninep
