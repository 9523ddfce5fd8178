import Verif.Lemmas.Messages
import Verif.Spec.Layout

/-
What the decoders of requests return for arbitrary bytes.
-/

namespace Ninep
open Spec Dec

/-- only zeros -/
def Zeros (l : List Bytes) : Prop := ∀ x ∈ l.flatten, x = 0

theorem zeros_le (n : Nat) : ∀ x ∈ le n 0, x = 0 := by
  induction n with
  | zero => simp [le]
  | succ n ih => simpa [le] using ih

/-- a statement of a decoder that decodes one field -/
structure Slot {R α : Type} (m : Dec R Unit) (k : Kind) (P : α → Prop) (enc : α → Bytes) (set : α → R → R) : Prop where
  whole : ∀ s w rest, k.front s.b.unread = some (w, rest) →
    ∃ v s', m s = .ok () s' ∧ P v ∧ enc v = w ∧ s'.b.unread = rest ∧ s'.t = s.t ∧ s'.r = set v s.r
  nothing : ∀ s, s.b.unread = [] → ∃ e s', m s = .ret e s' ∧ s'.t = s.t ∧ s'.r = s.r
  odd : ∀ s, k.front s.b.unread = none → s.b.unread ≠ [] → m s = .panic ∨
    ((∃ e s', m s = .ret e s' ∧ s'.t = s.t ∧ s'.r = s.r) ∧ k = .str) ∨
    ∃ v s', m s = .ok () s' ∧ P v ∧ s'.b.unread = [] ∧ s'.t = s.t ∧ s'.r = set v s.r ∧
      (k ≠ .str → s.b.unread <+: enc v) ∧ (k = .str → ∀ x ∈ enc v, x = 0)

theorem front_append {k : Kind} {b w r : Bytes} (h : k.front b = some (w, r)) : b = w ++ r := by
  cases k <;> simp only [Kind.front] at h <;> split at h <;> simp only [Option.some.injEq, Prod.mk.injEq, reduceCtorEq] at h <;>
    (obtain ⟨rfl, rfl⟩ := h; exact (List.take_append_drop _ _).symm)

theorem readU_nothing {R : Type} (n : Nat) (e : DecErr) (s : DSt R) (h : s.b.unread = []) :
    ∃ s', readU n e s = .ret e s' ∧ s'.t = s.t ∧ s'.r = s.r := by
  simp [readU, Buffer.read, h]

/-- a number -/
theorem slot_int {R α : Type} (n : Nat) (hpos : 0 < n) (hn : n ≤ 8) (e : DecErr) (g : (Fin 8 → Byte) → α)
    (enc : α → Bytes) (hinv : ∀ u, enc (g u) = pfx n u) (f : α → R → R) :
    Slot (readU n e >>= fun u => setR (f (g u))) (.num n) (fun _ => True) enc f where
  whole := by
    intro s w rest h
    have hl : n ≤ s.b.unread.length := by
      simp only [Kind.front] at h
      split at h <;> simp_all
    simp only [Kind.front, if_pos hl, Option.some.injEq, Prod.mk.injEq] at h
    obtain ⟨hw, hr⟩ := h
    obtain ⟨⟨pre, b, spare⟩, u, t, r⟩ := s
    obtain ⟨u', hu', h⟩ := readU_full hn e w rest pre spare u t r (by rw [← hw]; simp at hl ⊢; omega) hpos
    have hb : b = w ++ rest := by rw [← hw, ← hr]; simp
    subst hb
    refine ⟨g u', ⟨⟨pre ++ w, rest, spare⟩, u', t, f (g u') r⟩, ?_, trivial, by rw [hinv, hu'], ?_⟩
    · rw [bind_ok h]; rfl
    · exact ⟨rfl, rfl, rfl⟩
  nothing := by
    intro s hs
    obtain ⟨s', h, ht, hr⟩ := readU_nothing n e s hs
    exact ⟨e, s', bind_ret h, ht, hr⟩
  odd := by
    intro s h0 h1
    have hl : s.b.unread.length < n := by
      simp only [Kind.front] at h0
      split at h0
      · cases h0
      · omega
    obtain ⟨⟨pre, b, spare⟩, u, t, r⟩ := s
    obtain ⟨u', hu', h⟩ := readU_short hn e b pre spare u t r (by simp at hl; omega) h1
    refine .inr (.inr ⟨g u', ⟨⟨pre ++ b, [], spare⟩, u', t, f (g u') r⟩, ?_, trivial, ?_⟩)
    · rw [bind_ok h]; rfl
    · exact ⟨rfl, rfl, rfl, fun _ => by rw [hinv]; exact hu', nofun⟩

theorem slot_u8 {R : Type} (f : UInt8 → R → R) : Slot (getU8 f) (.num 1) (fun _ => True) (fun v => le 1 v.toNat) f :=
  slot_int 1 (by omega) (by omega) _ (fun u => u 0) _ (fun u => by simpa [pfx, List.ofFn_succ, leVal] using le_leVal [u 0]) f

theorem slot_u16 {R : Type} (f : UInt16 → R → R) : Slot (getU16 f) (.num 2) (fun _ => True) (fun v => le 2 v.toNat) f :=
  slot_int 2 (by omega) (by omega) _ asm16 _ (fun u => by rw [asm16_toNat]; simpa [pfx, List.ofFn_succ] using le_leVal [u 0, u 1]) f

theorem slot_u32 {R : Type} (f : UInt32 → R → R) : Slot (getU32 f) (.num 4) (fun _ => True) (fun v => le 4 v.toNat) f :=
  slot_int 4 (by omega) (by omega) _ asm32 _
    (fun u => by rw [asm32_toNat]; simpa [pfx, List.ofFn_succ] using le_leVal [u 0, u 1, u 2, u 3]) f

theorem slot_u64 {R : Type} (f : UInt64 → R → R) : Slot (getU64 f) (.num 8) (fun _ => True) (fun v => le 8 v.toNat) f :=
  slot_int 8 (by omega) (by omega) _ asm64 _
    (fun u => by rw [asm64_toNat]; simpa [pfx, List.ofFn_succ] using le_leVal [u 0, u 1, u 2, u 3, u 4, u 5, u 6, u 7]) f

theorem slot_count {R : Type} (f : Int32 → R → R) : Slot (getCount f) (.num 4) (fun _ => True) (fun v => le 4 v.toUInt32.toNat) f :=
  slot_int 4 (by omega) (by omega) _ asmCount _
    (fun u => by rw [asmCount_eq, asm32_toNat]; simpa [pfx, List.ofFn_succ] using le_leVal [u 0, u 1, u 2, u 3]) f

/-- a count of `n` bytes and what is done with it -/
theorem slot_counted {R α : Type} (n : Nat) (hpos : 0 < n) (hn : n ≤ 8) (e : DecErr) (g : (Fin 8 → Byte) → Nat) (hg : ∀ u, le n (g u) = pfx n u)
    (hlt : ∀ u, g u < 2 ^ (8 * n)) (m : Nat → Dec R Unit) (k : Kind)
    (hf : ∀ b, k.front b = if n ≤ b.length ∧ n + leVal (b.take n) ≤ b.length then some (b.take (n + leVal (b.take n)), b.drop (n + leVal (b.take n))) else none)
    (P : α → Prop) (enc : α → Bytes) (f : α → R → R)
    (hm : ∀ s l, l < 2 ^ (8 * n) → l ≤ s.b.unread.length → ∃ v s', m l s = .ok () s' ∧ P v ∧ enc v = le n l ++ s.b.unread.take l ∧
      s'.b.unread = s.b.unread.drop l ∧ s'.t = s.t ∧ s'.r = f v s.r)
    (hm' : ∀ s l, l < 2 ^ (8 * n) → s.b.unread.length < l → m l s = .panic ∨
      ((∃ e s', m l s = .ret e s' ∧ s'.t = s.t ∧ s'.r = s.r) ∧ k = .str) ∨
      ∃ v s', m l s = .ok () s' ∧ P v ∧ s'.b.unread = [] ∧ s'.t = s.t ∧ s'.r = f v s.r ∧ k ≠ .str ∧ le n l ++ s.b.unread <+: enc v) :
    Slot (readU n e >>= fun u => m (g u)) k P enc f where
  whole := by
    intro s w rest h
    rw [hf] at h
    split at h
    · rename_i hl
      simp only [Option.some.injEq, Prod.mk.injEq] at h
      obtain ⟨⟨pre, b, spare⟩, u, t, r⟩ := s
      simp only at h hl
      obtain ⟨hw, hr⟩ := h
      obtain ⟨u', hu', h⟩ := readU_full hn e (b.take n) (b.drop n) pre spare u t r (by simp; omega) hpos
      rw [List.take_append_drop] at h
      have hlen : g u' = leVal (b.take n) := by
        refine le_inj (n := n) ?_ ?_ ?_
        · rw [show (256 : Nat) = 2 ^ 8 from rfl, ← Nat.pow_mul]; exact hlt u'
        · have := leVal_lt (b.take n)
          rwa [List.length_take, Nat.min_eq_left hl.1] at this
        · rw [hg, hu']
          have := le_leVal (b.take n)
          rw [List.length_take, Nat.min_eq_left hl.1] at this
          exact this.symm
      obtain ⟨v, s', h1, h2, h3, h4, h5, h6⟩ := hm ⟨⟨pre ++ b.take n, b.drop n, spare⟩, u', t, r⟩ (g u') (hlt u') (by simp; omega)
      refine ⟨v, s', by rw [bind_ok h, h1], h2, ?_, ?_, h5, h6⟩
      · rw [h3, hg, hu', ← hw, hlen, List.take_add]
      · rw [h4, ← hr, hlen, List.drop_drop]
    · cases h
  nothing := by
    intro s hs
    obtain ⟨s', h, ht, hr⟩ := readU_nothing n e s hs
    exact ⟨e, s', bind_ret h, ht, hr⟩
  odd := by
    intro s h0 h1
    rw [hf] at h0
    split at h0
    · cases h0
    rename_i hl
    obtain ⟨⟨pre, b, spare⟩, u, t, r⟩ := s
    simp only at hl h1
    -- the count is there, or a part of it
    have key : ∃ u' pre' b', readU n e ⟨⟨pre, b, spare⟩, u, t, r⟩ = .ok u' ⟨⟨pre', b', spare⟩, u', t, r⟩ ∧
        (b'.length < g u' ∨ b' = []) ∧ b <+: le n (g u') ++ b' := by
      by_cases hb : n ≤ b.length
      · obtain ⟨u', hu', h⟩ := readU_full hn e (b.take n) (b.drop n) pre spare u t r (by simp; omega) hpos
        rw [List.take_append_drop] at h
        refine ⟨u', _, _, h, .inl ?_, by rw [hg, hu', List.take_append_drop]; exact List.prefix_rfl⟩
        have hlen : g u' = leVal (b.take n) := by
          refine le_inj (n := n) ?_ ?_ ?_
          · rw [show (256 : Nat) = 2 ^ 8 from rfl, ← Nat.pow_mul]; exact hlt u'
          · have := leVal_lt (b.take n)
            rwa [List.length_take, Nat.min_eq_left hb] at this
          · rw [hg, hu']
            have := le_leVal (b.take n)
            rw [List.length_take, Nat.min_eq_left hb] at this
            exact this.symm
        simp
        omega
      · obtain ⟨u', hu', h⟩ := readU_short hn e b pre spare u t r (by omega) h1
        exact ⟨u', _, _, h, .inr rfl, by rw [hg, List.append_nil]; exact hu'⟩
    obtain ⟨u', pre', b', h, hb', hpre⟩ := key
    rw [bind_ok h]
    by_cases hs : b'.length < g u'
    · rcases hm' ⟨⟨pre', b', spare⟩, u', t, r⟩ (g u') (hlt u') hs with h | h | ⟨v, s', h2, h3, h4, h5, h6, h7, h8⟩
      · exact .inl h
      · exact .inr (.inl h)
      · exact .inr (.inr ⟨v, s', h2, h3, h4, h5, h6, fun _ => hpre.trans h8, fun hx => absurd hx h7⟩)
    · have hn' : b' = [] := by rcases hb' with h | h; exact absurd h hs; exact h
      subst hn'
      obtain ⟨v, s', h2, h3, h7, h4, h5, h6⟩ := hm ⟨⟨pre', [], spare⟩, u', t, r⟩ (g u') (hlt u') (by simp at hs ⊢; omega)
      refine .inr (.inr ⟨v, s', h2, h3, by rw [h4]; simp, h5, h6, fun _ => by rw [h7]; simpa using hpre, fun _ x hx => ?_⟩)
      have h0 : g u' = 0 := by simpa using hs
      rw [h7, h0] at hx
      exact zeros_le n x (by simpa using hx)

theorem slot_string {R : Type} (f : GoString → R → R) : Slot (getString f) .str (fun v => v.length < 2 ^ 16) str f := by
  refine slot_counted (R := R) 2 (by omega) (by omega) _ (fun u => (asmLen16 u).toNat) len16_bytes len16_lt (fun l => takeString l f) .str
    (fun b => rfl) _ _ _ ?_ ?_
  · intro s l hl h
    refine ⟨s.b.unread.take l, { s with r := f (s.b.bytes.take l) s.r, b := s.b.next l }, ?_, ?_, ?_, rfl, rfl, rfl⟩
    · unfold takeString
      rw [if_neg (by simp [Buffer.len]; omega)]
    · simp; omega
    · simp [str, Nat.min_eq_left h]
  · intro s l hl h
    refine .inr (.inl ⟨⟨.shortString l s.b.len, s, ?_, rfl, rfl⟩, rfl⟩)
    unfold takeString
    rw [if_pos (by simpa [Buffer.len] using h)]

/-- counted data -/
theorem take_data {R : Type} (n : Nat) (k : Kind) (hk : k ≠ .str) (f : Bytes → R → R) :
    (∀ (s : DSt R) l, l < 2 ^ (8 * n) → l ≤ s.b.unread.length → ∃ (v : Bytes) (s' : DSt R), takeData l f s = .ok () s' ∧ v.length < 2 ^ (8 * n) ∧
      le n v.length ++ v = le n l ++ s.b.unread.take l ∧ s'.b.unread = s.b.unread.drop l ∧ s'.t = s.t ∧ s'.r = f v s.r) ∧
    (∀ (s : DSt R) l, l < 2 ^ (8 * n) → s.b.unread.length < l → takeData l f s = .panic ∨
      ((∃ e s', takeData l f s = .ret e s' ∧ s'.t = s.t ∧ s'.r = s.r) ∧ k = .str) ∨
      ∃ (v : Bytes) (s' : DSt R), takeData l f s = .ok () s' ∧ v.length < 2 ^ (8 * n) ∧ s'.b.unread = [] ∧ s'.t = s.t ∧ s'.r = f v s.r ∧
        k ≠ .str ∧ le n l ++ s.b.unread <+: le n v.length ++ v) := by
  constructor
  · intro s l hl h
    refine ⟨s.b.unread.take l, { s with r := f (s.b.unread.take l) s.r, b := s.b.next l }, ?_, ?_, ?_, rfl, rfl, rfl⟩
    · unfold takeData Buffer.sliceTo
      rw [if_pos (by simp; omega), List.take_append_of_le_length h]
    · simp; omega
    · simp [Nat.min_eq_left h]
  · intro s l hl h
    by_cases hp : l ≤ (s.b.unread ++ s.b.spare).length
    · refine .inr (.inr ⟨(s.b.unread ++ s.b.spare).take l, { s with r := f ((s.b.unread ++ s.b.spare).take l) s.r, b := s.b.next l }, ?_, ?_, ?_, rfl, rfl, hk, ?_⟩)
      · unfold takeData Buffer.sliceTo
        rw [if_pos hp]
      · rw [List.length_take]; omega
      · simp [Buffer.next]; omega
      · rw [List.length_take, Nat.min_eq_left hp, List.take_append, List.take_of_length_le (by omega), ← List.append_assoc]
        exact List.prefix_append _ _
    · left
      unfold takeData Buffer.sliceTo
      rw [if_neg hp]

theorem slot_data16 {R : Type} (f : Bytes → R → R) :
    Slot (getData16 f) (.data 2) (fun v => v.length < 2 ^ 16) (fun v : Bytes => le 2 v.length ++ v) f :=
  slot_counted (R := R) 2 (by omega) (by omega) _ (fun u => (asmLen16 u).toNat) len16_bytes len16_lt (fun l => takeData l f) (.data 2)
    (fun b => rfl) _ _ _ (take_data 2 (.data 2) nofun f).1 (take_data 2 (.data 2) nofun f).2

theorem slot_data32 {R : Type} (f : Bytes → R → R) :
    Slot (getData32 f) (.data 4) (fun v => v.length < 2 ^ 32) (fun v : Bytes => le 4 v.length ++ v) f :=
  slot_counted (R := R) 4 (by omega) (by omega) _ (fun u => (asmLen32 u).toNat) len32_bytes len32_lt (fun l => takeData l f) (.data 4)
    (fun b => rfl) _ _ _ (take_data 4 (.data 4) nofun f).1 (take_data 4 (.data 4) nofun f).2

/-! ### one field after the other -/

/-- the result after the statements from field `i` on have been run on the bytes `b`; `ps` are the fields before -/
structure Out {R : Type} (parts : R → List Bytes) (ok : R → Prop) (L : Layout) (i : Nat) (b : Bytes) (t : Tag) (ps : List Bytes) (s : DSt R) : Prop where
  tag : s.t = t
  fits : ok s.r
  len : i ≤ (parts s.r).length
  front : (parts s.r).take i = ps.take i
  whole : ((parts s.r).drop i).take (L.wholes b).1.length = (L.wholes b).1
  cut : ∀ k, (L.wholes b).2.2 = some k → k ≠ .str → (L.wholes b).2.1 <+: (parts s.r).getD (i + (L.wholes b).1.length) []
  empty : (L.wholes b).2.2 = some .str → Zeros ((parts s.r).drop (i + (L.wholes b).1.length))
  none : (L.wholes b).2.1 = [] → Zeros ((parts s.r).drop (i + (L.wholes b).1.length))
  rest : Zeros ((parts s.r).drop (i + (L.wholes b).1.length + 1))

/-- what a statement has left, if it has not panicked -/
def DRes.left {R α : Type} : DRes R α → Option (DSt R)
  | .ok _ s => some s
  | .ret _ s => some s
  | .panic => none

def Ends {R : Type} (parts : R → List Bytes) (ok : R → Prop) (L : Layout) (i : Nat) (m : Dec R Unit) : Prop :=
  ∀ s s', ok s.r → i ≤ (parts s.r).length → Zeros ((parts s.r).drop i) → (m s).left = some s' → Out parts ok L i s.b.unread s.t (parts s.r) s'

theorem Zeros.drop {l : List Bytes} {i j : Nat} (h : Zeros (l.drop i)) (hij : i ≤ j) : Zeros (l.drop j) := by
  intro x hx
  obtain ⟨y, hy, hx⟩ := List.mem_flatten.1 hx
  refine h x (List.mem_flatten.2 ⟨y, ?_, hx⟩)
  rw [show j = i + (j - i) by omega, ← List.drop_drop] at hy
  exact List.mem_of_mem_drop hy

variable {R : Type} {parts : R → List Bytes} {ok : R → Prop}

/-- nothing has been done -/
theorem Out.stay {L : Layout} {i : Nat} {b : Bytes} {s s' : DSt R} (hok : ok s.r) (hi : i ≤ (parts s.r).length) (hz : Zeros ((parts s.r).drop i))
    (ht : s'.t = s.t) (hr : s'.r = s.r) (hw : (L.wholes b).1 = []) (hn : ∀ k, (L.wholes b).2.2 = some k → k ≠ .str → (L.wholes b).2.1 = []) :
    Out parts ok L i b s.t (parts s.r) s' := by
  refine ⟨ht, hr ▸ hok, hr ▸ hi, by rw [hr], by simp [hw], fun n h h' => ?_, fun _ => ?_, fun _ => ?_, ?_⟩
  · rw [hn n h h']; exact List.nil_prefix
  · rw [hr]; exact hz.drop (by omega)
  · rw [hr]; exact hz.drop (by omega)
  · rw [hr]; exact hz.drop (by omega)

theorem ends_finish (i : Nat) : Ends parts ok .done i finish := by
  intro s s' hok hi hz h
  unfold finish at h
  have : s' = s := by
    split at h <;> simp only [DRes.left, Option.some.injEq] at h <;> exact h.symm
  subst this
  exact .stay hok hi hz rfl rfl rfl (fun n h => by simp [Layout.wholes] at h)

theorem wholes_none {k : Kind} {next : Bytes → Layout} {b : Bytes} (h : k.front b = none) :
    (Layout.field k next).wholes b = ([], b, some k) := by simp [Layout.wholes, h]

theorem wholes_some {k : Kind} {next : Bytes → Layout} {b w r : Bytes} (h : k.front b = some (w, r)) :
    (Layout.field k next).wholes b = (w :: ((next w).wholes r).1, ((next w).wholes r).2) := by simp [Layout.wholes, h]

/-- on no bytes nothing happens -/
def Idle (m : Dec R Unit) : Prop := ∀ s s', s.b.unread = [] → (m s).left = some s' → s'.t = s.t ∧ s'.r = s.r

theorem idle_finish : Idle (finish : Dec R Unit) := by
  intro s s' hs h
  rw [finish_nil s hs] at h
  simp only [DRes.left, Option.some.injEq] at h
  subst h
  exact ⟨rfl, rfl⟩

theorem Slot.idle {α : Type} {m : Dec R Unit} {k : Kind} {P : α → Prop} {enc : α → Bytes} {set : α → R → R} (hm : Slot m k P enc set) (f : Dec R Unit) :
    Idle (m >>= fun _ => f) := by
  intro s s' hs h
  obtain ⟨e, s1, h1, h2, h3⟩ := hm.nothing s hs
  rw [bind_ret h1] at h
  simp only [DRes.left, Option.some.injEq] at h
  subst h
  exact ⟨h2, h3⟩

theorem Ends.seq {α : Type} {m f : Dec R Unit} {k : Kind} {P : α → Prop} {enc : α → Bytes} {set : α → R → R} (hm : Slot m k P enc set)
    {next : Bytes → Layout} {i : Nat} (hparts : ∀ v r, i < (parts r).length → parts (set v r) = (parts r).set i (enc v))
    (hlen : ∀ r, ok r → i < (parts r).length) (hok : ∀ v r, P v → ok r → ok (set v r))
    (hf : ∀ w, Ends parts ok (next w) (i + 1) f) (hidle : Idle f) : Ends parts ok (.field k next) i (m >>= fun _ => f) := by
  intro s s' hs hi hz h
  have hi' := hlen _ hs
  cases hk : k.front s.b.unread with
  | none =>
    have hw := wholes_none (next := next) hk
    by_cases he : s.b.unread = []
    · obtain ⟨h1, h2⟩ := hm.idle f s s' he h
      exact .stay hs hi hz h1 h2 (by rw [hw]) (fun n _ _ => by rw [hw, he])
    · rcases hm.odd s hk he with h1 | ⟨⟨e, s1, h1, h2, h3⟩, hn⟩ | ⟨v, s1, h1, h2, h3, h4, h5, h6, h7⟩
      · rw [bind_def, h1] at h
        cases h
      · rw [bind_ret h1] at h
        simp only [DRes.left, Option.some.injEq] at h
        subst h
        exact .stay hs hi hz h2 h3 (by rw [hw]) (fun n h h' => by
          rw [hw] at h
          simp only [Option.some.injEq] at h
          exact absurd (h ▸ hn) h')
      · rw [bind_ok h1] at h
        obtain ⟨g1, g2⟩ := hidle s1 s' h3 h
        have hp : parts s'.r = (parts s.r).set i (enc v) := by rw [g2, h5, hparts v _ hi']
        have hz1 : Zeros ((parts s'.r).drop (i + 1)) := by
          rw [hp, List.drop_set_of_lt (by omega)]
          exact hz.drop (by omega)
        refine ⟨by rw [g1, h4], by rw [g2, h5]; exact hok v _ h2 hs, by rw [hp]; simp; omega, ?_, by rw [hw]; simp, fun n hn hn' => ?_, fun hn => ?_, ?_, ?_⟩
        · rw [hp, List.take_set_of_le (by omega)]
        · rw [hw] at hn ⊢
          simp only [Option.some.injEq] at hn
          simp only [List.length_nil, Nat.add_zero]
          rw [hp]
          simp only [List.getD_eq_getElem?_getD, List.getElem?_set_self hi', Option.getD_some]
          exact h6 (hn ▸ hn')
        · rw [hw] at hn ⊢
          simp only [Option.some.injEq] at hn
          simp only [List.length_nil, Nat.add_zero]
          rw [List.drop_eq_getElem_cons (by rw [hp]; simp; omega)]
          intro x hx
          rw [List.flatten_cons, List.mem_append] at hx
          rcases hx with hx | hx
          · have : (parts s'.r)[i]'(by rw [hp]; simp; omega) = enc v := by simp [hp]
            rw [this] at hx
            exact h7 hn x hx
          · exact hz1 x hx
        · rw [hw]
          intro hx
          exact absurd hx he
        · rw [hw]
          exact hz1
  | some x =>
    obtain ⟨w, r⟩ := x
    have hw := wholes_some (next := next) hk
    obtain ⟨v, s1, h1, h2, h3, h4, h5, h6⟩ := hm.whole s w r hk
    rw [bind_ok h1] at h
    have hp : parts s1.r = (parts s.r).set i w := by rw [h6, hparts v _ hi', h3]
    have hz1 : Zeros ((parts s1.r).drop (i + 1)) := by
      rw [hp, List.drop_set_of_lt (by omega)]
      exact hz.drop (by omega)
    have ho := hf w s1 s' (by rw [h6]; exact hok v _ h2 hs) (by rw [hp]; simp; omega) hz1 h
    rw [h4] at ho
    have hfr : (parts s'.r).take (i + 1) = (parts s.r).take i ++ [w] := by
      rw [ho.front, hp, List.take_add_one, List.take_set_of_le (by omega), List.getElem?_set_self hi']
      rfl
    have hlen' := ho.len
    have hat : (parts s'.r)[i]? = some w := by
      have := congrArg (fun l => l[i]?) hfr
      simp only [List.getElem?_take, List.getElem?_append_right (show ((parts s.r).take i).length ≤ i by simp; omega)] at this
      rw [if_pos (by omega), List.length_take, Nat.min_eq_left hi, Nat.sub_self] at this
      exact this
    refine ⟨by rw [ho.tag, h5], ho.fits, by omega, ?_, ?_, ?_, ?_, ?_, ?_⟩
    · have := congrArg (fun l => l.take i) hfr
      simp only [List.take_take, Nat.min_eq_left (Nat.le_succ i)] at this
      rw [this, List.take_append_of_le_length (by simp; omega), List.take_take, Nat.min_self]
    · rw [hw]
      have h7 : (parts s'.r).drop i = w :: (parts s'.r).drop (i + 1) := by
        obtain ⟨hlt, hat⟩ := List.getElem?_eq_some_iff.1 hat
        rw [List.drop_eq_getElem_cons hlt, hat]
      rw [h7, List.length_cons, List.take_succ_cons, ho.whole]
    · rw [hw]
      intro n hn hn'
      have := ho.cut n hn hn'
      rwa [show i + (w :: ((next w).wholes r).1).length = i + 1 + ((next w).wholes r).1.length by simp; omega]
    · rw [hw]
      intro hx
      have := ho.empty hx
      rwa [show i + (w :: ((next w).wholes r).1).length = i + 1 + ((next w).wholes r).1.length by simp; omega]
    · rw [hw]
      intro hx
      have := ho.none hx
      rwa [show i + (w :: ((next w).wholes r).1).length = i + 1 + ((next w).wholes r).1.length by simp; omega]
    · rw [hw]
      have := ho.rest
      rwa [show i + (w :: ((next w).wholes r).1).length + 1 = i + 1 + ((next w).wholes r).1.length + 1 by simp; omega]

/-! ### the names of a walk -/

theorem dec_assoc {α β γ : Type} (m : Dec R α) (f : α → Dec R β) (g : β → Dec R γ) : ((m >>= f) >>= g) = m >>= fun a => f a >>= g := by
  funext s
  simp only [bind_def]
  cases m s <;> rfl

/-- the names that are left, and the end of the decoder -/
def names (k i : Nat) : Dec TwalkPkt Unit :=
  forRange (fun i => getString fun v r => { r with Paths := r.Paths.set i v }) k i >>= fun _ => finish

theorem names_succ (k i : Nat) : names (k + 1) i = (getString fun v r => { r with Paths := r.Paths.set i v }) >>= fun _ => names k (i + 1) := by
  unfold names
  rw [forRange, dec_assoc]

theorem names_zero (i : Nat) : names 0 i = finish := by
  funext s
  rfl

theorem idle_names (k i : Nat) : Idle (names k i) := by
  cases k with
  | zero => rw [names_zero]; exact idle_finish
  | succ k => rw [names_succ]; exact (slot_string _).idle _

def walkParts (r : TwalkPkt) : List Bytes := (TMsg.walk r).parts

theorem walkParts_length (r : TwalkPkt) : (walkParts r).length = r.Paths.length + 3 := by simp [walkParts, TMsg.parts]

theorem ends_names (l k i : Nat) (hl : i + k = l) :
    Ends walkParts (fun r => (TMsg.walk r).Fits ∧ r.Paths.length = l) (.strs k) (3 + i) (names k i) := by
  induction k generalizing i with
  | zero => rw [names_zero]; exact ends_finish _
  | succ k ih =>
    rw [names_succ]
    refine Ends.seq (slot_string _) ?_ ?_ ?_ (fun w => ?_) (idle_names _ _)
    · intro v r _
      simp [walkParts, TMsg.parts, List.map_set, show 3 + i = i + 1 + 1 + 1 by omega]
    · intro r hr
      rw [walkParts_length]
      have := hr.2
      omega
    · intro v r hv hr
      refine ⟨⟨by simpa using hr.1.1, fun s hs => ?_⟩, by simpa using hr.2⟩
      rcases List.mem_or_eq_of_mem_set hs with h | h
      · exact hr.1.2 s h
      · exact h ▸ hv
    · exact ih (i + 1) (by omega)

theorem zeros_names (l : Nat) : Zeros ((List.replicate l ([] : GoString)).map str) := by
  intro x hx
  obtain ⟨y, hy, hx⟩ := List.mem_flatten.1 hx
  obtain ⟨z, hz, rfl⟩ := List.mem_map.1 hy
  rw [(List.mem_replicate.1 hz).2] at hx
  exact zeros_le 2 x (by simpa [str] using hx)

theorem ends_strings : Ends walkParts (fun r => (TMsg.walk r).Fits) (.field (.num 2) fun n => .strs (leVal n)) 2
    ((getStrings fun f r => { r with Paths := f r.Paths }) >>= fun _ => finish) := by
  intro s s' hok hi hz h
  have e : ((getStrings fun f r => { r with Paths := f r.Paths }) >>= fun _ => finish) =
      (readU 2 (.shortInt 16) >>= fun u => (setR fun r : TwalkPkt => { r with Paths := List.replicate (asmLen16 u).toNat [] }) >>= fun _ =>
        names (asmLen16 u).toNat 0) := by
    unfold getStrings names
    rw [dec_assoc]
    congr 1
  rw [e] at h
  -- the count has been read
  have fwd (u : Fin 8 → Byte) (b : Buffer) (h : (((setR fun r : TwalkPkt => { r with Paths := List.replicate (asmLen16 u).toNat [] }) >>= fun _ =>
        names (asmLen16 u).toNat 0) ⟨b, u, s.t, s.r⟩).left = some s') :
      Out walkParts (fun r => (TMsg.walk r).Fits ∧ r.Paths.length = (asmLen16 u).toNat) (.strs (asmLen16 u).toNat) 3 b.unread s.t
        (walkParts { s.r with Paths := List.replicate (asmLen16 u).toNat [] }) s' := by
    refine ends_names (asmLen16 u).toNat (asmLen16 u).toNat 0 (by simp) ⟨b, u, s.t, { s.r with Paths := List.replicate (asmLen16 u).toNat [] }⟩ s' ?_ ?_ ?_ h
    · exact ⟨⟨by simpa using len16_lt u, fun x hx => by rw [(List.mem_replicate.1 hx).2]; decide⟩, by simp⟩
    · rw [walkParts_length]; omega
    · exact zeros_names _
  have two (n : Nat) : (walkParts { s.r with Paths := List.replicate n [] }).take 2 = (walkParts s.r).take 2 := rfl
  have hi3 : 3 ≤ (walkParts s'.r).length := by rw [walkParts_length]; omega
  have tk (l : List Bytes) : (walkParts s'.r).take 3 = l.take 3 → (walkParts s'.r).take 2 = l.take 2 := fun h => by
    have := congrArg (fun l => l.take 2) h
    simpa [List.take_take] using this
  cases hk : (Kind.num 2).front s.b.unread with
  | none =>
    have hw := wholes_none (next := fun n => .strs (leVal n)) hk
    by_cases he : s.b.unread = []
    · obtain ⟨s1, h1, h2, h3⟩ := readU_nothing 2 (.shortInt 16) s he
      rw [bind_ret h1] at h
      simp only [DRes.left, Option.some.injEq] at h
      subst h
      exact .stay hok hi hz h2 h3 (by rw [hw]) (fun n _ _ => by rw [hw, he])
    · have hl : s.b.unread.length < 2 := by
        simp only [Kind.front] at hk
        split at hk
        · cases hk
        · omega
      obtain ⟨⟨pre, b, spare⟩, u, t, r⟩ := s
      obtain ⟨u', hu', h1⟩ := readU_short (n := 2) (by omega) (.shortInt 16) b pre spare u t r (by simp at hl; omega) he
      rw [bind_ok h1] at h
      have ho := fwd u' _ h
      have hs' : s'.r = { r with Paths := List.replicate (asmLen16 u').toNat [] } :=
        (idle_names _ 0 ⟨⟨pre ++ b, [], spare⟩, u', t, { r with Paths := List.replicate (asmLen16 u').toNat [] }⟩ s' rfl h).2
      refine ⟨ho.tag, ho.fits.1, by omega, (tk _ ho.front).trans (two _), by rw [hw]; simp, fun n _ _ => ?_, ?_, ?_, ?_⟩
      · rw [hw, hs']
        simp only [List.length_nil, Nat.add_zero]
        have : (walkParts { r with Paths := List.replicate (asmLen16 u').toNat [] }).getD 2 [] = le 2 (asmLen16 u').toNat := by
          simp [walkParts, TMsg.parts]
        rw [this, len16_bytes]
        exact hu'
      · rw [hw]
        nofun
      · rw [hw]
        exact fun hx => absurd hx he
      · rw [hw, hs']
        exact zeros_names _
  | some x =>
    obtain ⟨w, r⟩ := x
    have hw := wholes_some (next := fun n => .strs (leVal n)) hk
    have hl : 2 ≤ s.b.unread.length := by
      simp only [Kind.front] at hk
      split at hk
      · assumption
      · cases hk
    simp only [Kind.front, if_pos hl, Option.some.injEq, Prod.mk.injEq] at hk
    obtain ⟨hw1, hr1⟩ := hk
    obtain ⟨⟨pre, b, spare⟩, u, t, r0⟩ := s
    simp only at hl hw1 hr1
    obtain ⟨u', hu', h1⟩ := readU_full (n := 2) (by omega) (.shortInt 16) (b.take 2) (b.drop 2) pre spare u t r0 (by simp; omega) (by omega)
    rw [List.take_append_drop] at h1
    rw [bind_ok h1] at h
    have ho := fwd u' _ h
    have hlen : leVal w = (asmLen16 u').toNat := by
      have h3 := le_leVal w
      have h4 : w.length = 2 := by rw [← hw1]; simp; omega
      rw [h4] at h3
      refine (le_inj (n := 2) ?_ ?_ ?_).symm
      · exact len16_lt u'
      · have := leVal_lt w
        rwa [h4] at this
      · rw [len16_bytes, hu', hw1, h3]
    rw [← hlen, hr1] at ho
    have hat : walkParts s'.r = (walkParts s'.r).take 2 ++ w :: (walkParts s'.r).drop 3 := by
      have h5 : (walkParts s'.r)[2]'(by omega) = w := by
        simp [walkParts, TMsg.parts, ho.fits.2]
        rw [hlen, len16_bytes, hu', hw1]
      conv => lhs; rw [← List.take_append_drop 2 (walkParts s'.r), List.drop_eq_getElem_cons (by omega), h5]
    refine ⟨ho.tag, ho.fits.1, by omega, (tk _ ho.front).trans (two _), ?_, ?_, ?_, ?_, ?_⟩
    · rw [hw]
      have h7 : (walkParts s'.r).drop 2 = w :: (walkParts s'.r).drop 3 := by
        conv => lhs; rw [hat, List.drop_left' (by simp; omega)]
      rw [h7, List.length_cons, List.take_succ_cons, ho.whole]
    · rw [hw]
      intro n hn hn'
      have := ho.cut n hn hn'
      rwa [show 2 + (w :: ((Layout.strs (leVal w)).wholes r).1).length = 3 + ((Layout.strs (leVal w)).wholes r).1.length by simp; omega]
    · rw [hw]
      intro hx
      have := ho.empty hx
      rwa [show 2 + (w :: ((Layout.strs (leVal w)).wholes r).1).length = 3 + ((Layout.strs (leVal w)).wholes r).1.length by simp; omega]
    · rw [hw]
      intro hx
      have := ho.none hx
      rwa [show 2 + (w :: ((Layout.strs (leVal w)).wholes r).1).length = 3 + ((Layout.strs (leVal w)).wholes r).1.length by simp; omega]
    · rw [hw]
      have := ho.rest
      rwa [show 2 + (w :: ((Layout.strs (leVal w)).wholes r).1).length + 1 = 3 + ((Layout.strs (leVal w)).wholes r).1.length + 1 by simp; omega]

theorem idle_strings : Idle ((getStrings fun f (r : TwalkPkt) => { r with Paths := f r.Paths }) >>= fun _ => finish) := by
  intro s s' hs h
  obtain ⟨s1, h1, h2, h3⟩ := readU_nothing 2 (.shortInt 16) s hs
  unfold getStrings at h
  rw [dec_assoc, bind_ret h1] at h
  simp only [DRes.left, Option.some.injEq] at h
  subst h
  exact ⟨h2, h3⟩

/-! ### whole decoders -/

theorem run_out {m : Dec R Unit} {L : Layout} (hm : Ends parts ok L 0 m) {zero : R} (h0 : ok zero) (hz : Zeros (parts zero))
    (tag : Tag) (x pre spare : Bytes) {r : R} {t : Tag} {e : Option DecErr} {b1 : Buffer}
    (h : Dec.run (getTag >>= fun _ => m) zero ⟨pre, le 2 tag.toNat ++ x, spare⟩ = .done r t e b1) :
    ∃ s : DSt R, s.r = r ∧ s.t = t ∧ Out parts ok L 0 x tag (parts zero) s := by
  unfold Dec.run at h
  obtain ⟨u, h1⟩ := (codes_tag (R := R)).fwd tag trivial pre x spare (fun _ => 0) 0 zero
  rw [bind_ok h1] at h
  have ho := hm ⟨⟨pre ++ le 2 tag.toNat, x, spare⟩, u, tag, zero⟩
  dsimp only at h ho
  cases hq : m ⟨⟨pre ++ le 2 tag.toNat, x, spare⟩, u, tag, zero⟩ with
  | ok a s =>
    rw [hq] at h ho
    simp only [Unm.done.injEq] at h
    exact ⟨s, h.1, h.2.1, ho s h0 (by simp) (by simpa using hz) rfl⟩
  | ret a s =>
    rw [hq] at h ho
    simp only [Unm.done.injEq] at h
    exact ⟨s, h.1, h.2.1, ho s h0 (by simp) (by simpa using hz) rfl⟩
  | panic =>
    rw [hq] at h
    cases h

theorem madeOf_out {f : R → TMsg} {L : Layout} (hL : ∀ r, (f r).layout = L) {x : Bytes} {tag : Tag} {ps : List Bytes} {s : DSt R}
    (h : Out (fun r => (f r).parts) (fun r => (f r).Fits) L 0 x tag ps s) : s.t = tag ∧ MadeOf (f s.r) x := by
  refine ⟨h.tag, h.fits, ?_, ?_, ?_, ?_, ?_⟩
  · rw [hL]; simpa using h.whole
  · rw [hL]; simpa using h.cut
  · rw [hL]; simpa [Zeros] using h.empty
  · rw [hL]; simpa [Zeros] using h.none
  · rw [hL]; simpa [Zeros] using h.rest

theorem zeros_decide {l : List Bytes} (h : l.flatten.all (· == 0) = true) : Zeros l := by
  intro x hx
  simpa using List.all_eq_true.1 h x hx

theorem map_done {P Q : Type} {f : P → Q} {u : Unm P} {q : Q} {t : Tag} {e : Option DecErr} {b : Buffer} (h : u.map f = .done q t e b) :
    ∃ p, u = .done p t e b ∧ q = f p := by
  cases u with
  | panic => cases h
  | done p t' e' b' =>
    simp only [Unm.map, Unm.done.injEq] at h
    obtain ⟨h1, rfl, rfl, rfl⟩ := h
    exact ⟨p, rfl, h1.symm⟩

/-- What a decoder of requests makes of arbitrary bytes behind a tag. -/
theorem decT_madeOf (m0 : TMsg) (tag : Tag) (x pre spare : Bytes) {m : TMsg} {t : Tag} {e : Option DecErr} {b1 : Buffer}
    (h : decT m0 ⟨pre, le 2 tag.toNat ++ x, spare⟩ = .done m t e b1) : t = tag ∧ m.type = m0.type ∧ MadeOf m x := by
  have fin {R : Type} {f : R → TMsg} {L : Layout} {zero r : R} (hL : ∀ r, (f r).layout = L) {d : Dec R Unit}
      (hd : Ends (fun r => (f r).parts) (fun r => (f r).Fits) L 0 d) (h0 : (f zero).Fits) (hz : (f zero).parts.flatten.all (· == 0) = true)
      (hty : ∀ r, (f r).type = m0.type)
      (hrun : Dec.run (getTag >>= fun _ => d) zero ⟨pre, le 2 tag.toNat ++ x, spare⟩ = .done r t e b1) (hm : m = f r) :
      t = tag ∧ m.type = m0.type ∧ MadeOf m x := by
    obtain ⟨s, rfl, rfl, ho⟩ := run_out hd h0 (zeros_decide hz) tag x pre spare hrun
    obtain ⟨h1, h2⟩ := madeOf_out hL ho
    subst hm
    exact ⟨h1, hty _, h2⟩
  cases m0 with
  | version p0 =>
    obtain ⟨p, h1, h2⟩ := map_done h
    refine fin (f := .version) (fun _ => rfl) ?_ (by simp [TMsg.Fits]) (by decide) (fun _ => rfl) h1 h2
    exact Ends.seq (slot_u32 _) (fun _ _ _ => rfl) (fun _ _ => by simp [TMsg.parts]) (fun _ _ _ h => h)
      (fun _ => Ends.seq (slot_string _) (fun _ _ _ => rfl) (fun _ _ => by simp [TMsg.parts]) (fun _ _ h _ => h) (fun _ => ends_finish _) idle_finish)
      ((slot_string _).idle _)
  | attach p0 =>
    obtain ⟨p, h1, h2⟩ := map_done h
    refine fin (f := .attach) (fun _ => rfl) ?_ (by simp [TMsg.Fits]) (by decide) (fun _ => rfl) h1 h2
    exact Ends.seq (slot_u32 _) (fun _ _ _ => rfl) (fun _ _ => by simp [TMsg.parts]) (fun _ _ _ h => h)
      (fun _ => Ends.seq (slot_u32 _) (fun _ _ _ => rfl) (fun _ _ => by simp [TMsg.parts]) (fun _ _ _ h => h)
        (fun _ => Ends.seq (slot_string _) (fun _ _ _ => rfl) (fun _ _ => by simp [TMsg.parts]) (fun _ _ h h' => ⟨h, h'.2⟩)
          (fun _ => Ends.seq (slot_string _) (fun _ _ _ => rfl) (fun _ _ => by simp [TMsg.parts]) (fun _ _ h h' => ⟨h'.1, h⟩) (fun _ => ends_finish _) idle_finish)
          ((slot_string _).idle _)) ((slot_string _).idle _)) ((slot_u32 _).idle _)
  | flush p0 =>
    obtain ⟨p, h1, h2⟩ := map_done h
    refine fin (f := .flush) (fun _ => rfl) ?_ (by simp [TMsg.Fits]) (by decide) (fun _ => rfl) h1 h2
    exact Ends.seq (slot_u16 _) (fun _ _ _ => rfl) (fun _ _ => by simp [TMsg.parts]) (fun _ _ _ h => h) (fun _ => ends_finish _) idle_finish
  | walk p0 =>
    obtain ⟨p, h1, h2⟩ := map_done h
    refine fin (f := .walk) (fun _ => rfl) ?_ (by simp [TMsg.Fits]) (by decide) (fun _ => rfl) h1 h2
    exact Ends.seq (slot_u32 _) (fun _ _ _ => rfl) (fun _ _ => by simp [TMsg.parts]) (fun _ _ _ h => h)
      (fun _ => Ends.seq (slot_u32 _) (fun _ _ _ => rfl) (fun _ _ => by simp [TMsg.parts]) (fun _ _ _ h => h)
        (fun _ => ends_strings) idle_strings) ((slot_u32 _).idle _)
  | open_ p0 =>
    obtain ⟨p, h1, h2⟩ := map_done h
    refine fin (f := .open_) (fun _ => rfl) ?_ (by simp [TMsg.Fits]) (by decide) (fun _ => rfl) h1 h2
    exact Ends.seq (slot_u32 _) (fun _ _ _ => rfl) (fun _ _ => by simp [TMsg.parts]) (fun _ _ _ h => h)
      (fun _ => Ends.seq (slot_u8 _) (fun _ _ _ => rfl) (fun _ _ => by simp [TMsg.parts]) (fun _ _ _ h => h) (fun _ => ends_finish _) idle_finish)
      ((slot_u8 _).idle _)
  | create p0 =>
    obtain ⟨p, h1, h2⟩ := map_done h
    refine fin (f := .create) (fun _ => rfl) ?_ (by simp [TMsg.Fits]) (by decide) (fun _ => rfl) h1 h2
    exact Ends.seq (slot_u32 _) (fun _ _ _ => rfl) (fun _ _ => by simp [TMsg.parts]) (fun _ _ _ h => h)
      (fun _ => Ends.seq (slot_string _) (fun _ _ _ => rfl) (fun _ _ => by simp [TMsg.parts]) (fun _ _ h _ => h)
        (fun _ => Ends.seq (slot_u32 _) (fun _ _ _ => rfl) (fun _ _ => by simp [TMsg.parts]) (fun _ _ _ h => h)
          (fun _ => Ends.seq (slot_u8 _) (fun _ _ _ => rfl) (fun _ _ => by simp [TMsg.parts]) (fun _ _ _ h => h) (fun _ => ends_finish _) idle_finish)
          ((slot_u8 _).idle _)) ((slot_u32 _).idle _)) ((slot_string _).idle _)
  | stat p0 =>
    obtain ⟨p, h1, h2⟩ := map_done h
    refine fin (f := .stat) (fun _ => rfl) ?_ (by simp [TMsg.Fits]) (by decide) (fun _ => rfl) h1 h2
    exact Ends.seq (slot_u32 _) (fun _ _ _ => rfl) (fun _ _ => by simp [TMsg.parts]) (fun _ _ _ h => h) (fun _ => ends_finish _) idle_finish
  | wstat p0 =>
    obtain ⟨p, h1, h2⟩ := map_done h
    refine fin (f := .wstat) (fun _ => rfl) ?_ (by simp [TMsg.Fits]) (by decide) (fun _ => rfl) h1 h2
    exact Ends.seq (slot_u32 _) (fun _ _ _ => rfl) (fun _ _ => by simp [TMsg.parts]) (fun _ _ _ h => h)
      (fun _ => Ends.seq (slot_data16 _) (fun _ _ _ => rfl) (fun _ _ => by simp [TMsg.parts]) (fun _ _ h _ => h) (fun _ => ends_finish _) idle_finish)
      ((slot_data16 _).idle _)
  | clunk p0 =>
    obtain ⟨p, h1, h2⟩ := map_done h
    refine fin (f := .clunk) (fun _ => rfl) ?_ (by simp [TMsg.Fits]) (by decide) (fun _ => rfl) h1 h2
    exact Ends.seq (slot_u32 _) (fun _ _ _ => rfl) (fun _ _ => by simp [TMsg.parts]) (fun _ _ _ h => h) (fun _ => ends_finish _) idle_finish
  | remove p0 =>
    obtain ⟨p, h1, h2⟩ := map_done h
    refine fin (f := .remove) (fun _ => rfl) ?_ (by simp [TMsg.Fits]) (by decide) (fun _ => rfl) h1 h2
    exact Ends.seq (slot_u32 _) (fun _ _ _ => rfl) (fun _ _ => by simp [TMsg.parts]) (fun _ _ _ h => h) (fun _ => ends_finish _) idle_finish
  | read p0 =>
    obtain ⟨p, h1, h2⟩ := map_done h
    refine fin (f := .read) (fun _ => rfl) ?_ (by simp [TMsg.Fits]) (by decide) (fun _ => rfl) h1 h2
    exact Ends.seq (slot_u32 _) (fun _ _ _ => rfl) (fun _ _ => by simp [TMsg.parts]) (fun _ _ _ h => h)
      (fun _ => Ends.seq (slot_u64 _) (fun _ _ _ => rfl) (fun _ _ => by simp [TMsg.parts]) (fun _ _ _ h => h)
        (fun _ => Ends.seq (slot_count _) (fun _ _ _ => rfl) (fun _ _ => by simp [TMsg.parts]) (fun _ _ _ h => h) (fun _ => ends_finish _) idle_finish)
        ((slot_count _).idle _)) ((slot_u64 _).idle _)
  | write p0 =>
    obtain ⟨p, h1, h2⟩ := map_done h
    refine fin (f := .write) (fun _ => rfl) ?_ (by simp [TMsg.Fits]) (by decide) (fun _ => rfl) h1 h2
    exact Ends.seq (slot_u32 _) (fun _ _ _ => rfl) (fun _ _ => by simp [TMsg.parts]) (fun _ _ _ h => h)
      (fun _ => Ends.seq (slot_u64 _) (fun _ _ _ => rfl) (fun _ _ => by simp [TMsg.parts]) (fun _ _ _ h => h)
        (fun _ => Ends.seq (slot_data32 _) (fun _ _ _ => rfl) (fun _ _ => by simp [TMsg.parts]) (fun _ _ h _ => h) (fun _ => ends_finish _) idle_finish)
        ((slot_data32 _).idle _)) ((slot_u64 _).idle _)

end Ninep
