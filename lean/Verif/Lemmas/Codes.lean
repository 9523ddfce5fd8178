import Verif.Lemmas.Ints
/-
Compositional correctness of the decoder primitives.

`Codes m P enc set slack` says that the decoder block `m` reads one value `v` (with `P v`), whose
canonical encoding is `enc v`, and assigns it with `set`.  `slack v k` over-approximates the
truncations (by `k` missing bytes) that the block fails to notice.
-/

namespace Ninep
open Spec

/-- Reading `e` off `a` leaves `a'`; a shorter `a` is possible if nothing is left. -/
def Canon (a e a' : Bytes) : Prop := a = e ++ a' ∨ (a' = [] ∧ a <+: e)

theorem Canon.trans {a e a' e' a'' : Bytes} (h : Canon a e a') (h' : Canon a' e' a'') :
    Canon a (e ++ e') a'' := by
  rcases h with rfl | ⟨rfl, hp⟩
  · rcases h' with rfl | ⟨rfl, hp'⟩
    · left; simp
    · right; exact ⟨rfl, (List.prefix_append_right_inj e).2 hp'⟩
  · right
    refine ⟨?_, hp.trans (List.prefix_append _ _)⟩
    rcases h' with h | ⟨h, _⟩
    · exact (List.append_eq_nil_iff.1 h.symm).2
    · exact h

structure Codes {R α : Type} (m : Dec R Unit) (P : α → Prop) (enc : α → Bytes)
    (set : α → Tag × R → Tag × R) (slack : α → Nat → Prop) : Prop where
  fwd : ∀ v, P v → ∀ pre rest spare u t r, ∃ u',
    m ⟨⟨pre, enc v ++ rest, spare⟩, u, t, r⟩ =
      .ok () ⟨⟨pre ++ enc v, rest, spare⟩, u', (set v (t, r)).1, (set v (t, r)).2⟩
  inv : ∀ s s', m s = .ok () s' → ∃ v, P v ∧ (s'.t, s'.r) = set v (s.t, s.r) ∧
    Canon s.b.unread (enc v) s'.b.unread
  empty : ∀ s, s.b.unread = [] → ∃ e s', m s = .ret e s'
  trunc : ∀ v, P v → ∀ w, w <+: enc v → w.length < (enc v).length → ∀ pre spare u t r s',
    m ⟨⟨pre, w, spare⟩, u, t, r⟩ = .ok () s' →
      s'.b.unread = [] ∧ slack v ((enc v).length - w.length)

namespace Dec
variable {R α β : Type}

theorem bind_def (m : Dec R α) (f : α → Dec R β) (s : DSt R) :
    (m >>= f) s = match m s with
      | .ok a s' => f a s'
      | .ret e s' => .ret e s'
      | .panic => .panic := rfl

theorem bind_ok {m : Dec R α} {f : α → Dec R β} {s s' : DSt R} {a : α} (h : m s = .ok a s') :
    (m >>= f) s = f a s' := by rw [bind_def, h]

theorem bind_ret {m : Dec R α} {f : α → Dec R β} {s s' : DSt R} {e : DecErr} (h : m s = .ret e s') :
    (m >>= f) s = .ret e s' := by rw [bind_def, h]

theorem bind_eq_ok {m : Dec R α} {f : α → Dec R β} {s s' : DSt R} {b : β}
    (h : (m >>= f) s = .ok b s') : ∃ a s₁, m s = .ok a s₁ ∧ f a s₁ = .ok b s' := by
  rw [bind_def] at h
  split at h
  · exact ⟨_, _, ‹_›, h⟩
  · cases h
  · cases h

end Dec
open Dec

/-- split a proper prefix of `a ++ b` -/
theorem prefix_append_cases {w a b : Bytes} (h : w <+: a ++ b) (hl : w.length < (a ++ b).length) :
    (w <+: a ∧ w.length < a.length) ∨ ∃ w', w = a ++ w' ∧ w' <+: b ∧ w'.length < b.length := by
  by_cases hw : w.length < a.length
  · left
    refine ⟨?_, hw⟩
    exact List.prefix_of_prefix_length_le h (List.prefix_append _ _) (by omega)
  · right
    have ha : a <+: w := List.prefix_of_prefix_length_le (List.prefix_append a b) h (by omega)
    obtain ⟨w', rfl⟩ := ha
    refine ⟨w', rfl, (List.prefix_append_right_inj a).1 h, ?_⟩
    simp at hl; omega

theorem Codes.seq {R α β : Type} {m₁ m₂ : Dec R Unit} {P₁ : α → Prop} {P₂ : β → Prop} {e₁ e₂ s₁ s₂ k₁ k₂}
    (h₁ : Codes m₁ P₁ e₁ s₁ k₁) (h₂ : Codes m₂ P₂ e₂ s₂ k₂) :
    Codes (m₁ >>= fun _ => m₂) (fun v : α × β => P₁ v.1 ∧ P₂ v.2) (fun v => e₁ v.1 ++ e₂ v.2)
      (fun v tr => s₂ v.2 (s₁ v.1 tr)) (fun v => k₂ v.2) where
  fwd := by
    rintro ⟨a, b⟩ ⟨ha, hb⟩ pre rest spare u t r
    obtain ⟨u₁, hu₁⟩ := h₁.fwd a ha pre (e₂ b ++ rest) spare u t r
    obtain ⟨u₂, hu₂⟩ := h₂.fwd b hb (pre ++ e₁ a) rest spare u₁ (s₁ a (t, r)).1 (s₁ a (t, r)).2
    refine ⟨u₂, ?_⟩
    simp only [List.append_assoc] at hu₁ hu₂ ⊢
    rw [bind_ok hu₁, hu₂]
  inv := by
    intro s s' h
    obtain ⟨_, s₁', h1, h2⟩ := bind_eq_ok h
    obtain ⟨a, ha, hsa, hca⟩ := h₁.inv _ _ h1
    obtain ⟨b, hb, hsb, hcb⟩ := h₂.inv _ _ h2
    exact ⟨(a, b), ⟨ha, hb⟩, by rw [hsb, hsa], hca.trans hcb⟩
  empty := by
    intro s hs
    obtain ⟨e, s', h⟩ := h₁.empty s hs
    exact ⟨e, s', bind_ret h⟩
  trunc := by
    rintro ⟨a, b⟩ ⟨ha, hb⟩ w hw hl pre spare u t r s' h
    rcases prefix_append_cases hw hl with ⟨hw', hl'⟩ | ⟨w', rfl, hw', hl'⟩
    · obtain ⟨_, s₁', h1, h2⟩ := bind_eq_ok h
      have := (h₁.trunc a ha w hw' hl' _ _ _ _ _ _ h1).1
      obtain ⟨e, s'', h3⟩ := h₂.empty _ this
      rw [h3] at h2; cases h2
    · obtain ⟨u₁, hu₁⟩ := h₁.fwd a ha pre w' spare u t r
      rw [bind_ok hu₁] at h
      have := h₂.trunc b hb w' hw' hl' _ _ _ _ _ _ h
      simpa [Nat.add_sub_add_left] using this

/-! ### integers -/

/-- the first `n` bytes of the scratch array -/
def pfx (n : Nat) (u : Fin 8 → Byte) : Bytes := (List.ofFn u).take n

theorem pfx_length {n : Nat} (hn : n ≤ 8) (u : Fin 8 → Byte) : (pfx n u).length = n := by
  simp [pfx]; omega

theorem pfx_prefix {n : Nat} (hn : n ≤ 8) (w : Bytes) (hw : w.length ≤ n) (u : Fin 8 → Byte) :
    w <+: pfx n (fun i => w.getD i.val (u i)) := by
  rw [List.prefix_iff_eq_take]
  apply List.ext_getElem
  · simp [pfx]; omega
  · intro i h1 h2
    simp only [pfx, List.getElem_take, List.getElem_ofFn, List.getD_eq_getElem?_getD]
    simp [h1]

theorem pfx_full {n : Nat} (hn : n ≤ 8) (w : Bytes) (hw : w.length = n) (u : Fin 8 → Byte) :
    pfx n (fun i => w.getD i.val (u i)) = w := by
  have := pfx_prefix hn w (by omega) u
  exact (List.IsPrefix.eq_of_length this (by rw [pfx_length hn, hw])).symm

theorem readU_eq {R : Type} (n : Nat) (e : DecErr) (s : DSt R) (h : s.b.unread ≠ []) :
    readU n e s = .ok (fun i => (s.b.unread.take n).getD i.val (s.u i))
      { s with b := { s.b with pre := s.b.pre ++ s.b.unread.take n, unread := s.b.unread.drop n }
               u := fun i => (s.b.unread.take n).getD i.val (s.u i) } := by
  simp [readU, Buffer.read, h]

theorem readU_empty {R : Type} (n : Nat) (e : DecErr) (s : DSt R) (h : s.b.unread = []) :
    ∃ s', readU n e s = .ret e s' := by
  simp [readU, Buffer.read, h]

/-- an integer field of `n` bytes, followed by `k` which uses the scratch array -/
theorem readU_full {R : Type} {n : Nat} (hn : n ≤ 8) (e : DecErr) (w rest pre spare : Bytes) (u t) (r : R)
    (hw : w.length = n) (hpos : 0 < n) : ∃ u', pfx n u' = w ∧
    readU n e ⟨⟨pre, w ++ rest, spare⟩, u, t, r⟩ = .ok u' ⟨⟨pre ++ w, rest, spare⟩, u', t, r⟩ := by
  refine ⟨fun i => w.getD i.val (u i), pfx_full hn w hw u, ?_⟩
  have : w ++ rest ≠ [] := by
    intro h; have := congrArg List.length h; simp only [List.length_append, List.length_nil] at this; omega
  rw [readU_eq _ _ _ this]
  have h1 : (w ++ rest).take n = w := by simp [← hw]
  have h2 : (w ++ rest).drop n = rest := by simp [← hw]
  simp only [h1, h2]

theorem readU_short {R : Type} {n : Nat} (hn : n ≤ 8) (e : DecErr) (w pre spare : Bytes) (u t) (r : R)
    (hw : w.length ≤ n) (hpos : w ≠ []) : ∃ u', w <+: pfx n u' ∧
    readU n e ⟨⟨pre, w, spare⟩, u, t, r⟩ = .ok u' ⟨⟨pre ++ w, [], spare⟩, u', t, r⟩ := by
  refine ⟨fun i => w.getD i.val (u i), pfx_prefix hn w hw u, ?_⟩
  rw [readU_eq _ _ _ hpos]
  have h1 : w.take n = w := List.take_of_length_le hw
  have h2 : w.drop n = [] := List.drop_of_length_le hw
  simp only [h1, h2]

theorem readU_inv {R : Type} {n : Nat} (hn : n ≤ 8) {e : DecErr} {s s' : DSt R} {u'}
    (h : readU n e s = .ok u' s') : s'.t = s.t ∧ s'.r = s.r ∧ s.b.unread ≠ [] ∧
      Canon s.b.unread (pfx n u') s'.b.unread := by
  by_cases hs : s.b.unread = []
  · obtain ⟨s'', h'⟩ := readU_empty n e s hs
    rw [h'] at h; cases h
  · rw [readU_eq _ _ _ hs] at h
    injection h with h1 h2
    subst h1 h2
    refine ⟨rfl, rfl, hs, ?_⟩
    by_cases hl : n ≤ s.b.unread.length
    · left
      rw [pfx_full hn _ (by simp; omega)]
      simp
    · right
      have h2 : s.b.unread.drop n = [] := List.drop_of_length_le (by omega)
      have h1 : s.b.unread.take n = s.b.unread := List.take_of_length_le (by omega)
      refine ⟨h2, ?_⟩
      conv => lhs; rw [← h1]
      exact pfx_prefix hn _ (by simp; omega) _

/-- assignment to the result only -/
def onR {R α : Type} (f : α → R → R) : α → Tag × R → Tag × R := fun v tr => (tr.1, f v tr.2)

/-- missing between 1 and `n-1` bytes -/
def intSlack (n k : Nat) : Prop := 0 < k ∧ k < n

theorem codes_int {R α : Type} (n : Nat) (hpos : 0 < n) (hn : n ≤ 8) (e : DecErr) (g : (Fin 8 → Byte) → α)
    (enc : α → Bytes) (hlen : ∀ v, (enc v).length = n) (hinv : ∀ u, enc (g u) = pfx n u)
    (hg : ∀ v u, enc (g u) = enc v → g u = v) (f : α → Tag × R → Tag × R) (k : α → Dec R Unit)
    (hk : ∀ v s, k v s = .ok () { s with t := (f v (s.t, s.r)).1, r := (f v (s.t, s.r)).2 }) :
    Codes (readU n e >>= fun u => k (g u)) (fun _ => True) enc f
      (fun _ => intSlack n) where
  fwd := by
    intro v _ pre rest spare u t r
    obtain ⟨u', hu', h⟩ := readU_full hn e (enc v) rest pre spare u t r (hlen v) hpos
    refine ⟨u', ?_⟩
    rw [bind_ok h]
    have : g u' = v := hg v u' (by rw [hinv, hu'])
    rw [this, hk]
  inv := by
    intro s s' h
    obtain ⟨u', s₁, h1, h2⟩ := bind_eq_ok h
    obtain ⟨ht, hr, -, hc⟩ := readU_inv hn h1
    rw [hk] at h2
    injection h2 with _ h2
    subst h2
    refine ⟨g u', trivial, ?_, ?_⟩
    · rw [ht, hr]
    · rw [hinv]; exact hc
  empty := by
    intro s hs
    obtain ⟨s', h⟩ := readU_empty n e s hs
    exact ⟨e, s', bind_ret h⟩
  trunc := by
    intro v _ w hw hl pre spare u t r s' h
    by_cases hw0 : w = []
    · obtain ⟨s'', h'⟩ := readU_empty n e ⟨⟨pre, w, spare⟩, u, t, r⟩ hw0
      rw [bind_ret h'] at h; cases h
    · rw [hlen] at hl ⊢
      obtain ⟨u', -, h'⟩ := readU_short hn e w pre spare u t r (by omega) hw0
      rw [bind_ok h', hk] at h
      injection h with _ h
      subst h
      have := List.length_pos_iff.2 hw0
      exact ⟨rfl, by constructor <;> omega⟩

theorem codes_u8 {R : Type} (f : UInt8 → R → R) :
    Codes (getU8 f) (fun _ => True) (fun v => le 1 v.toNat) (onR f) (fun _ => intSlack 1) := by
  apply codes_int (k := fun v => setR (f v)) (g := fun u => u 0) <;> try (first | omega | simp)
  · intro u
    simpa [pfx, List.ofFn_succ, leVal] using le_leVal [u 0]
  · intro v u h
    exact UInt8.toNat_inj.1 (le_inj (by simpa using (u 0).toNat_lt) (by simpa using v.toNat_lt) h)
  · intro v s; rfl

theorem codes_u16 {R : Type} (f : UInt16 → R → R) :
    Codes (getU16 f) (fun _ => True) (fun v => le 2 v.toNat) (onR f) (fun _ => intSlack 2) := by
  apply codes_int (k := fun v => setR (f v)) (g := asm16) <;> try (first | omega | simp)
  · intro u
    rw [asm16_toNat]
    simpa [pfx, List.ofFn_succ] using le_leVal [u 0, u 1]
  · intro v u h
    exact UInt16.toNat_inj.1 (le_inj (by simpa using (asm16 u).toNat_lt) (by simpa using v.toNat_lt) h)
  · intro v s; rfl

theorem codes_u32 {R : Type} (f : UInt32 → R → R) :
    Codes (getU32 f) (fun _ => True) (fun v => le 4 v.toNat) (onR f) (fun _ => intSlack 4) := by
  apply codes_int (k := fun v => setR (f v)) (g := asm32) <;> try (first | omega | simp)
  · intro u
    rw [asm32_toNat]
    simpa [pfx, List.ofFn_succ] using le_leVal [u 0, u 1, u 2, u 3]
  · intro v u h
    exact UInt32.toNat_inj.1 (le_inj (by simpa using (asm32 u).toNat_lt) (by simpa using v.toNat_lt) h)
  · intro v s; rfl

theorem codes_u64 {R : Type} (f : UInt64 → R → R) :
    Codes (getU64 f) (fun _ => True) (fun v => le 8 v.toNat) (onR f) (fun _ => intSlack 8) := by
  apply codes_int (k := fun v => setR (f v)) (g := asm64) <;> try (first | omega | simp)
  · intro u
    rw [asm64_toNat]
    simpa [pfx, List.ofFn_succ] using le_leVal [u 0, u 1, u 2, u 3, u 4, u 5, u 6, u 7]
  · intro v u h
    exact UInt64.toNat_inj.1 (le_inj (by simpa using (asm64 u).toNat_lt) (by simpa using v.toNat_lt) h)
  · intro v s; rfl

theorem codes_count {R : Type} (f : Int32 → R → R) :
    Codes (getCount f) (fun _ => True) (fun v => le 4 v.toUInt32.toNat) (onR f)
      (fun _ => intSlack 4) := by
  apply codes_int (k := fun v => setR (f v)) (g := asmCount) <;> try (first | omega | simp)
  · intro u
    rw [asmCount_eq, asm32_toNat]
    simpa [pfx, List.ofFn_succ] using le_leVal [u 0, u 1, u 2, u 3]
  · intro v u h
    rw [asmCount_eq] at h
    have := UInt32.toNat_inj.1
      (le_inj (by simpa using (asm32 u).toNat_lt) (by simpa using v.toUInt32.toNat_lt) h)
    rw [← asmCount_eq] at this
    cases hx : asmCount u; cases v; rw [hx] at this; exact congrArg _ this
  · intro v s; rfl

theorem codes_tag {R : Type} :
    Codes (R := R) getTag (fun _ => True) (fun v : Tag => le 2 v.toNat) (fun v tr => (v, tr.2))
      (fun _ => intSlack 2) := by
  have e (u) : (asmLen16 u).toUInt16 = asm16 u := by
    apply UInt16.toNat_inj.1
    rw [UInt64.toNat_toUInt16, asmLen16_toNat, asm16_toNat, ← asm16_toNat]
    exact Nat.mod_eq_of_lt (asm16 u).toNat_lt
  have : (getTag : Dec R Unit) =
      (readU 2 .shortTag >>= fun u => setT (asm16 u)) := by
    unfold getTag
    simp only [e]
  rw [this]
  apply codes_int (k := setT) (g := asm16) <;> try (first | omega | simp)
  · intro u
    rw [asm16_toNat]
    simpa [pfx, List.ofFn_succ] using le_leVal [u 0, u 1]
  · intro v u h
    exact UInt16.toNat_inj.1 (le_inj (by simpa using (asm16 u).toNat_lt) (by simpa using v.toNat_lt) h)
  · intro v s; rfl

/-! ### strings and payloads -/

theorem len16_bytes (u : Fin 8 → Byte) : le 2 (asmLen16 u).toNat = pfx 2 u := by
  rw [asmLen16_toNat]
  simpa [pfx, List.ofFn_succ] using le_leVal [u 0, u 1]

theorem len16_lt (u : Fin 8 → Byte) : (asmLen16 u).toNat < 2 ^ 16 := by
  rw [asmLen16_toNat]
  have := leVal_lt [u 0, u 1]
  simpa only [List.length_cons, List.length_nil] using this

theorem len32_bytes (u : Fin 8 → Byte) : le 4 (asmLen32 u).toNat = pfx 4 u := by
  rw [asmLen32_toNat]
  simpa [pfx, List.ofFn_succ] using le_leVal [u 0, u 1, u 2, u 3]

theorem len32_lt (u : Fin 8 → Byte) : (asmLen32 u).toNat < 2 ^ 32 := by
  rw [asmLen32_toNat]
  have := leVal_lt [u 0, u 1, u 2, u 3]
  simpa only [List.length_cons, List.length_nil] using this

theorem len16_of_pfx {u : Fin 8 → Byte} {n : Nat} (hn : n < 2 ^ 16) (h : pfx 2 u = le 2 n) :
    (asmLen16 u).toNat = n :=
  le_inj (n := 2) (len16_lt u) hn (by rw [len16_bytes, h])

theorem len32_of_pfx {u : Fin 8 → Byte} {n : Nat} (hn : n < 2 ^ 32) (h : pfx 4 u = le 4 n) :
    (asmLen32 u).toNat = n :=
  le_inj (n := 4) (len32_lt u) hn (by rw [len32_bytes, h])

theorem str_length (s : GoString) : (str s).length = 2 + s.length := by simp [str]

theorem codes_string {R : Type} (f : GoString → R → R) :
    Codes (getString f) (fun v => v.length < 2 ^ 16) str (onR f)
      (fun v k => k = v.length + 1) where
  fwd := by
    intro v hv pre rest spare u t r
    obtain ⟨u', hu', h⟩ := readU_full (n := 2) (by omega) (.shortInt 16) (le 2 v.length) (v ++ rest) pre
      spare u t r (by simp) (by omega)
    refine ⟨u', ?_⟩
    simp only [str, List.append_assoc] at h ⊢
    unfold getString
    rw [bind_ok h, len16_of_pfx hv hu']
    simp [takeString, Buffer.len, Buffer.bytes, Buffer.next, onR]
  inv := by
    intro s s' h
    unfold getString at h
    obtain ⟨u', s₁, h1, h2⟩ := bind_eq_ok h
    obtain ⟨ht, hr, -, hc⟩ := readU_inv (by omega) h1
    by_cases hl : s₁.b.len < (asmLen16 u').toNat
    · simp [takeString, hl] at h2
    · simp only [takeString, hl, if_false] at h2
      injection h2 with _ h2
      subst h2
      have hlen : (s₁.b.bytes.take (asmLen16 u').toNat).length = (asmLen16 u').toNat := by
        simp only [Buffer.len, Buffer.bytes] at hl ⊢
        simp; omega
      refine ⟨s₁.b.bytes.take (asmLen16 u').toNat, ?_, ?_, ?_⟩
      · rw [hlen]; exact len16_lt u'
      · simp [onR, ht, hr]
      · refine Canon.trans (a' := s₁.b.unread) ?_ ?_
        · rw [hlen, len16_bytes]; exact hc
        · left; simp [Buffer.bytes, Buffer.next]
  empty := by
    intro s hs
    obtain ⟨s', h⟩ := readU_empty 2 (.shortInt 16) s hs
    exact ⟨_, s', bind_ret h⟩
  trunc := by
    intro v hv w hw hl pre spare u t r s' h
    unfold getString at h
    by_cases hw0 : w = []
    · obtain ⟨s'', h'⟩ := readU_empty 2 (.shortInt 16) ⟨⟨pre, w, spare⟩, u, t, r⟩ hw0
      rw [bind_ret h'] at h; cases h
    · rcases prefix_append_cases hw hl with ⟨hw', hl'⟩ | ⟨w', rfl, hw', hl'⟩
      · simp only [le_length] at hl'
        obtain ⟨u', -, h'⟩ := readU_short (n := 2) (by omega) (.shortInt 16) w pre spare u t r (by omega) hw0
        rw [bind_ok h'] at h
        by_cases hlt : 0 < (asmLen16 u').toNat
        · simp [takeString, Buffer.len, hlt] at h
        · simp [takeString, Buffer.len, hlt] at h
          subst h
          have := List.length_pos_iff.2 hw0
          refine ⟨by simp [Buffer.next], ?_⟩
          rw [str_length]; omega
      · obtain ⟨u', hu', h'⟩ := readU_full (n := 2) (by omega) (.shortInt 16) (le 2 v.length) w' pre
          spare u t r (by simp) (by omega)
        rw [bind_ok h', len16_of_pfx hv hu'] at h
        simp [takeString, Buffer.len, hl'] at h

/-- the payload statement after its count -/
theorem takeData_inv {R : Type} {l : Nat} {f : Bytes → R → R} {s s' : DSt R}
    (h : takeData l f s = .ok () s') : ∃ v, v.length = l ∧ v = (s.b.unread ++ s.b.spare).take l ∧
      (s'.t, s'.r) = onR f v (s.t, s.r) ∧ Canon s.b.unread v s'.b.unread ∧
      s'.b.unread = s.b.unread.drop l := by
  unfold takeData Buffer.sliceTo at h
  by_cases hl : l ≤ (s.b.unread ++ s.b.spare).length
  · simp only [hl, if_true] at h
    injection h with _ h
    subst h
    refine ⟨(s.b.unread ++ s.b.spare).take l, by simp at hl ⊢; omega, rfl, rfl, ?_, rfl⟩
    by_cases hl' : l ≤ s.b.unread.length
    · left
      rw [List.take_append_of_le_length hl']
      simp [Buffer.next]
    · right
      simp only [Buffer.next]
      refine ⟨List.drop_of_length_le (by omega), ?_⟩
      rw [List.take_append]
      rw [List.take_of_length_le (by omega : s.b.unread.length ≤ l)]
      exact List.prefix_append _ _
  · simp only [hl, if_false] at h; cases h

theorem takeData_fwd {R : Type} {f : Bytes → R → R} (v pre rest spare u t) (r : R) :
    takeData v.length f ⟨⟨pre, v ++ rest, spare⟩, u, t, r⟩ =
      .ok () ⟨⟨pre ++ v, rest, spare⟩, u, t, f v r⟩ := by
  simp [takeData, Buffer.sliceTo, Buffer.next]

theorem codes_data16 {R : Type} (f : Bytes → R → R) :
    Codes (getData16 f) (fun v => v.length < 2 ^ 16) (fun v => le 2 v.length ++ v) (onR f)
      (fun v k => 0 < k ∧ k < 2 + v.length) where
  fwd := by
    intro v hv pre rest spare u t r
    obtain ⟨u', hu', h⟩ := readU_full (n := 2) (by omega) (.shortInt 16) (le 2 v.length) (v ++ rest) pre
      spare u t r (by simp) (by omega)
    refine ⟨u', ?_⟩
    simp only [List.append_assoc] at h ⊢
    unfold getData16
    rw [bind_ok h, len16_of_pfx hv hu', takeData_fwd]
    simp [onR]
  inv := by
    intro s s' h
    unfold getData16 at h
    obtain ⟨u', s₁, h1, h2⟩ := bind_eq_ok h
    obtain ⟨ht, hr, -, hc⟩ := readU_inv (by omega) h1
    obtain ⟨v, hv, -, hs, hcv, -⟩ := takeData_inv h2
    refine ⟨v, by rw [hv]; exact len16_lt u', by rw [hs, ht, hr], ?_⟩
    refine Canon.trans ?_ hcv
    rw [hv, len16_bytes]; exact hc
  empty := by
    intro s hs
    obtain ⟨s', h⟩ := readU_empty 2 (.shortInt 16) s hs
    exact ⟨_, s', bind_ret h⟩
  trunc := by
    intro v hv w hw hl pre spare u t r s' h
    unfold getData16 at h
    by_cases hw0 : w = []
    · obtain ⟨s'', h'⟩ := readU_empty 2 (.shortInt 16) ⟨⟨pre, w, spare⟩, u, t, r⟩ hw0
      rw [bind_ret h'] at h; cases h
    · have hpos := List.length_pos_iff.2 hw0
      have hs : 0 < (le 2 v.length ++ v).length - w.length ∧
          (le 2 v.length ++ v).length - w.length < 2 + v.length := by
        simp at hl ⊢; omega
      refine ⟨?_, hs⟩
      rcases prefix_append_cases hw hl with ⟨hw', hl'⟩ | ⟨w', rfl, hw', hl'⟩
      · simp only [le_length] at hl'
        obtain ⟨u', -, h'⟩ := readU_short (n := 2) (by omega) (.shortInt 16) w pre spare u t r (by omega) hw0
        rw [bind_ok h'] at h
        obtain ⟨_, _, _, _, _, h3⟩ := takeData_inv h
        simpa using h3
      · obtain ⟨u', hu', h'⟩ := readU_full (n := 2) (by omega) (.shortInt 16) (le 2 v.length) w' pre
          spare u t r (by simp) (by omega)
        rw [bind_ok h', len16_of_pfx hv hu'] at h
        obtain ⟨_, _, _, _, _, h3⟩ := takeData_inv h
        rw [h3]
        exact List.drop_of_length_le (by simp; omega)

theorem codes_data32 {R : Type} (f : Bytes → R → R) :
    Codes (getData32 f) (fun v => v.length < 2 ^ 32) (fun v => le 4 v.length ++ v) (onR f)
      (fun v k => 0 < k ∧ k < 4 + v.length) where
  fwd := by
    intro v hv pre rest spare u t r
    obtain ⟨u', hu', h⟩ := readU_full (n := 4) (by omega) (.shortInt 32) (le 4 v.length) (v ++ rest) pre
      spare u t r (by simp) (by omega)
    refine ⟨u', ?_⟩
    simp only [List.append_assoc] at h ⊢
    unfold getData32
    rw [bind_ok h, len32_of_pfx hv hu', takeData_fwd]
    simp [onR]
  inv := by
    intro s s' h
    unfold getData32 at h
    obtain ⟨u', s₁, h1, h2⟩ := bind_eq_ok h
    obtain ⟨ht, hr, -, hc⟩ := readU_inv (by omega) h1
    obtain ⟨v, hv, -, hs, hcv, -⟩ := takeData_inv h2
    refine ⟨v, by rw [hv]; exact len32_lt u', by rw [hs, ht, hr], ?_⟩
    refine Canon.trans ?_ hcv
    rw [hv, len32_bytes]; exact hc
  empty := by
    intro s hs
    obtain ⟨s', h⟩ := readU_empty 4 (.shortInt 32) s hs
    exact ⟨_, s', bind_ret h⟩
  trunc := by
    intro v hv w hw hl pre spare u t r s' h
    unfold getData32 at h
    by_cases hw0 : w = []
    · obtain ⟨s'', h'⟩ := readU_empty 4 (.shortInt 32) ⟨⟨pre, w, spare⟩, u, t, r⟩ hw0
      rw [bind_ret h'] at h; cases h
    · have hpos := List.length_pos_iff.2 hw0
      have hs : 0 < (le 4 v.length ++ v).length - w.length ∧
          (le 4 v.length ++ v).length - w.length < 4 + v.length := by
        simp at hl ⊢; omega
      refine ⟨?_, hs⟩
      rcases prefix_append_cases hw hl with ⟨hw', hl'⟩ | ⟨w', rfl, hw', hl'⟩
      · simp only [le_length] at hl'
        obtain ⟨u', -, h'⟩ := readU_short (n := 4) (by omega) (.shortInt 32) w pre spare u t r (by omega) hw0
        rw [bind_ok h'] at h
        obtain ⟨_, _, _, _, _, h3⟩ := takeData_inv h
        simpa using h3
      · obtain ⟨u', hu', h'⟩ := readU_full (n := 4) (by omega) (.shortInt 32) (le 4 v.length) w' pre
          spare u t r (by simp) (by omega)
        rw [bind_ok h', len32_of_pfx hv hu'] at h
        obtain ⟨_, _, _, _, _, h3⟩ := takeData_inv h
        rw [h3]
        exact List.drop_of_length_le (by simp; omega)

/-! ### changing the representation of the value -/

theorem Codes.map {R α β : Type} {m : Dec R Unit} {P : α → Prop} {enc set slack}
    (h : Codes m P enc set slack) (to : α → β) (of : β → α) (hto : ∀ a, of (to a) = a)
    {P' : β → Prop} {enc' : β → Bytes} {set' : β → Tag × R → Tag × R} {slack' : β → Nat → Prop}
    (hP : ∀ b, P' b ↔ P (of b)) (henc : ∀ b, enc' b = enc (of b)) (hset : ∀ b tr, set' b tr = set (of b) tr)
    (hslack : ∀ b k, P' b → slack (of b) k → slack' b k) : Codes m P' enc' set' slack' where
  fwd := by
    intro b hb pre rest spare u t r
    simpa [henc, hset] using h.fwd (of b) ((hP b).1 hb) pre rest spare u t r
  inv := by
    intro s s' hs
    obtain ⟨a, ha, h1, h2⟩ := h.inv s s' hs
    exact ⟨to a, (hP _).2 (by rwa [hto]), by rw [hset, hto, h1], by rwa [henc, hto]⟩
  empty := h.empty
  trunc := by
    intro b hb w hw hl pre spare u t r s' hs
    rw [henc] at hw hl ⊢
    have := h.trunc (of b) ((hP b).1 hb) w hw hl pre spare u t r s' hs
    exact ⟨this.1, hslack b _ hb this.2⟩

theorem codes_qid {R : Type} (upd : (QID → QID) → R → R)
    (hupd : ∀ f g r, upd f (upd g r) = upd (fun q => f (g q)) r) :
    Codes (getQID upd) (fun _ => True) qid (onR fun v => upd fun _ => v) (fun _ => intSlack 8) := by
  refine ((codes_u8 _).seq ((codes_u32 _).seq (codes_u64 _))).map
    (to := fun v => ⟨v.1, v.2.1, v.2.2⟩) (of := fun q => (q.Typ, q.Version, q.Path)) (fun _ => rfl) ?_ ?_ ?_ ?_
  · simp
  · intro q; simp [qid]
  · intro q tr; simp [onR, hupd]
  · intro q k _ h; exact h

/-! ### lists -/

/-- storing `vs` at positions `i, i+1, …` -/
def fill {α : Type} : Nat → List α → List α → List α
  | _, [], xs => xs
  | i, v :: vs, xs => fill (i + 1) vs (xs.set i v)

theorem fill_eq {α : Type} (vs : List α) (i : Nat) (xs : List α) (h : i + vs.length = xs.length) :
    fill i vs xs = xs.take i ++ vs := by
  induction vs generalizing i xs with
  | nil => simp at h; simp [fill, h]
  | cons v vs ih =>
    simp only [List.length_cons] at h
    rw [fill, ih (i + 1) _ (by simp; omega)]
    rw [List.take_add_one]
    simp [show i < xs.length by omega, List.take_set_of_le]

section loop
variable {R α : Type} {body : Nat → Dec R Unit} {P : α → Prop} {enc : α → Bytes}
  {upd : (List α → List α) → R → R} {slack : α → Nat → Prop}

theorem loop_fwd (hupd : ∀ f g r, upd f (upd g r) = upd (fun q => f (g q)) r)
    (hid : ∀ r, upd (fun xs => xs) r = r)
    (hb : ∀ i, Codes (body i) P enc (onR fun v => upd fun xs => xs.set i v) slack)
    (vs : List α) (hP : ∀ v ∈ vs, P v) (i pre rest spare u t r) : ∃ u',
    forRange body vs.length i ⟨⟨pre, (vs.map enc).flatten ++ rest, spare⟩, u, t, r⟩ =
      .ok () ⟨⟨pre ++ (vs.map enc).flatten, rest, spare⟩, u', t, upd (fill i vs) r⟩ := by
  induction vs generalizing i pre u r with
  | nil =>
    refine ⟨u, ?_⟩
    have : (fill i ([] : List α)) = fun xs => xs := rfl
    simp only [List.map_nil, List.flatten_nil, List.nil_append, List.append_nil, this, hid]
    rfl
  | cons v vs ih =>
    obtain ⟨u₁, h₁⟩ := (hb i).fwd v (hP v (by simp)) pre ((vs.map enc).flatten ++ rest) spare u t r
    obtain ⟨u₂, h₂⟩ := ih (fun v' h' => hP v' (by simp [h'])) (i + 1) (pre ++ enc v) u₁
      (upd (fun xs => xs.set i v) r)
    refine ⟨u₂, ?_⟩
    simp only [List.length_cons, forRange, List.map_cons, List.flatten_cons, List.append_assoc] at h₁ h₂ ⊢
    rw [bind_ok h₁]
    simp only [onR]
    rw [h₂, hupd]
    rfl

theorem loop_inv (hupd : ∀ f g r, upd f (upd g r) = upd (fun q => f (g q)) r)
    (hid : ∀ r, upd (fun xs => xs) r = r)
    (hb : ∀ i, Codes (body i) P enc (onR fun v => upd fun xs => xs.set i v) slack)
    (k i : Nat) (s s' : DSt R) (h : forRange body k i s = .ok () s') :
    ∃ vs : List α, vs.length = k ∧ (∀ v ∈ vs, P v) ∧ s'.t = s.t ∧ s'.r = upd (fill i vs) s.r ∧
      Canon s.b.unread (vs.map enc).flatten s'.b.unread := by
  induction k generalizing i s with
  | zero =>
    injection h with _ h
    subst h
    refine ⟨[], rfl, by simp, rfl, ?_, by left; simp⟩
    have : (fill i ([] : List α)) = fun xs => xs := rfl
    rw [this, hid]
  | succ k ih =>
    obtain ⟨_, s₁, h1, h2⟩ := bind_eq_ok h
    obtain ⟨v, hv, hs, hc⟩ := (hb i).inv _ _ h1
    obtain ⟨vs, hl, hvs, ht, hr, hc'⟩ := ih _ _ h2
    simp only [onR, Prod.mk.injEq] at hs
    refine ⟨v :: vs, by simp [hl], by simpa [hv] using hvs, by rw [ht, hs.1], ?_, ?_⟩
    · rw [hr, hs.2, hupd]; rfl
    · simpa using hc.trans hc'

theorem loop_trunc
    (hb : ∀ i, Codes (body i) P enc (onR fun v => upd fun xs => xs.set i v) slack)
    (vs : List α) (hP : ∀ v ∈ vs, P v) (w : Bytes) (hw : w <+: (vs.map enc).flatten)
    (hl : w.length < (vs.map enc).flatten.length) (i pre spare u t r) (s' : DSt R)
    (h : forRange body vs.length i ⟨⟨pre, w, spare⟩, u, t, r⟩ = .ok () s') :
    s'.b.unread = [] ∧ ∃ v, vs.getLast? = some v ∧ slack v ((vs.map enc).flatten.length - w.length) := by
  induction vs generalizing i pre u t r w with
  | nil => simp at hl
  | cons v vs ih =>
    have hv := hP v (by simp)
    simp only [List.map_cons, List.flatten_cons] at hw hl ⊢
    simp only [List.length_cons, forRange] at h
    rcases prefix_append_cases hw hl with ⟨hw', hl'⟩ | ⟨w', rfl, hw', hl'⟩
    · obtain ⟨_, s₁, h1, h2⟩ := bind_eq_ok h
      obtain ⟨he, hsl⟩ := (hb i).trunc v hv w hw' hl' _ _ _ _ _ _ h1
      cases vs with
      | nil =>
        injection h2 with _ h2
        subst h2
        exact ⟨he, v, rfl, by simpa using hsl⟩
      | cons v' vs' =>
        obtain ⟨e, s₂, h3⟩ := (hb (i + 1)).empty s₁ he
        simp only [List.length_cons, forRange] at h2
        rw [bind_ret h3] at h2; cases h2
    · obtain ⟨u₁, h₁⟩ := (hb i).fwd v hv pre w' spare u t r
      rw [bind_ok h₁] at h
      obtain ⟨he, v', hv', hsl⟩ := ih (fun v' h' => hP v' (by simp [h'])) w' hw' hl' _ _ _ _ _ h
      refine ⟨he, v', ?_, ?_⟩
      · cases vs with
        | nil => simp at hv'
        | cons _ _ => simpa [List.getLast?_cons] using hv'
      · simpa [Nat.add_sub_add_left] using hsl

/-- a list with a 16 bit count -/
theorem codes_list (d : α) (hupd : ∀ f g r, upd f (upd g r) = upd (fun q => f (g q)) r)
    (hid : ∀ r, upd (fun xs => xs) r = r)
    (hb : ∀ i, Codes (body i) P enc (onR fun v => upd fun xs => xs.set i v) slack) :
    Codes (do
        let u ← readU 2 (.shortInt 16)
        setR (upd fun _ => List.replicate (asmLen16 u).toNat d)
        forRange body (asmLen16 u).toNat 0)
      (fun vs => vs.length < 2 ^ 16 ∧ ∀ v ∈ vs, P v)
      (fun vs => le 2 vs.length ++ (vs.map enc).flatten)
      (onR fun vs => upd fun _ => vs)
      (fun vs k => k = 1 + (vs.map enc).flatten.length ∨ ∃ v, vs.getLast? = some v ∧ slack v k) := by
  have hfill : ∀ (vs : List α) (r : R),
      upd (fill 0 vs) (upd (fun _ => List.replicate vs.length d) r) = upd (fun _ => vs) r := by
    intro vs r
    rw [hupd]
    congr 1
    funext xs
    rw [fill_eq _ _ _ (by simp)]; simp
  refine ⟨?_, ?_, ?_, ?_⟩
  · intro vs ⟨hv, hP⟩ pre rest spare u t r
    obtain ⟨u', hu', h⟩ := readU_full (n := 2) (by omega) (.shortInt 16) (le 2 vs.length)
      ((vs.map enc).flatten ++ rest) pre spare u t r (by simp) (by omega)
    obtain ⟨u₂, h₂⟩ := loop_fwd hupd hid hb vs hP 0 (pre ++ le 2 vs.length) rest spare u' t
      (upd (fun _ => List.replicate vs.length d) r)
    refine ⟨u₂, ?_⟩
    simp only [List.append_assoc] at h h₂ ⊢
    rw [bind_ok h, len16_of_pfx hv hu', bind_def]
    simp only [setR]
    rw [h₂, hfill]
    rfl
  · intro s s' h
    obtain ⟨u', s₁, h1, h2⟩ := bind_eq_ok h
    obtain ⟨ht, hr, -, hc⟩ := readU_inv (by omega) h1
    rw [bind_def] at h2
    simp only [setR] at h2
    obtain ⟨vs, hl, hvs, ht', hr', hc'⟩ := loop_inv hupd hid hb _ _ _ _ h2
    refine ⟨vs, ⟨by rw [hl]; exact len16_lt u', hvs⟩, ?_, ?_⟩
    · simp only [onR]
      rw [ht', hr', ht, hr, ← hl, hfill]
    · refine Canon.trans ?_ hc'
      rw [hl, len16_bytes]; exact hc
  · intro s hs
    obtain ⟨s', h⟩ := readU_empty 2 (.shortInt 16) s hs
    exact ⟨_, s', bind_ret h⟩
  · intro vs ⟨hv, hP⟩ w hw hl pre spare u t r s' h
    by_cases hw0 : w = []
    · obtain ⟨s'', h'⟩ := readU_empty 2 (.shortInt 16) ⟨⟨pre, w, spare⟩, u, t, r⟩ hw0
      rw [bind_ret h'] at h; cases h
    · have hpos := List.length_pos_iff.2 hw0
      rcases prefix_append_cases hw hl with ⟨hw', hl'⟩ | ⟨w', rfl, hw', hl'⟩
      · simp only [le_length] at hl'
        obtain ⟨u', -, h'⟩ := readU_short (n := 2) (by omega) (.shortInt 16) w pre spare u t r (by omega) hw0
        rw [bind_ok h', bind_def] at h
        simp only [setR] at h
        refine ⟨?_, ?_⟩
        · cases hk : (asmLen16 u').toNat with
          | zero =>
            rw [hk] at h
            injection h with _ h
            subst h; rfl
          | succ k =>
            rw [hk] at h
            simp only [forRange] at h
            obtain ⟨e, s₂, h3⟩ := (hb 0).empty ⟨⟨pre ++ w, [], spare⟩, u', t,
              upd (fun _ => List.replicate (k + 1) d) r⟩ rfl
            rw [bind_ret h3] at h; cases h
        · left
          simp only [List.length_append, le_length]; omega
      · obtain ⟨u', hu', h'⟩ := readU_full (n := 2) (by omega) (.shortInt 16) (le 2 vs.length) w' pre
          spare u t r (by simp) (by omega)
        rw [bind_ok h', len16_of_pfx hv hu', bind_def] at h
        simp only [setR] at h
        obtain ⟨he, v, hv', hsl⟩ := loop_trunc hb vs hP w' hw' hl' _ _ _ _ _ _ _ h
        refine ⟨he, Or.inr ⟨v, hv', ?_⟩⟩
        simpa [Nat.add_sub_add_left] using hsl

end loop

theorem codes_strings {R : Type} (upd : (List GoString → List GoString) → R → R)
    (hupd : ∀ f g r, upd f (upd g r) = upd (fun q => f (g q)) r)
    (hid : ∀ r, upd (fun xs => xs) r = r) :
    Codes (getStrings upd) (fun vs => vs.length < 2 ^ 16 ∧ ∀ v ∈ vs, v.length < 2 ^ 16)
      (fun vs => le 2 vs.length ++ (vs.map str).flatten) (onR fun vs => upd fun _ => vs)
      (fun vs k => k = 1 + (vs.map str).flatten.length ∨
        ∃ v, vs.getLast? = some v ∧ k = v.length + 1) :=
  codes_list [] hupd hid fun _ => codes_string _

theorem codes_qids {R : Type} (upd : (List QID → List QID) → R → R)
    (hupd : ∀ f g r, upd f (upd g r) = upd (fun q => f (g q)) r)
    (hid : ∀ r, upd (fun xs => xs) r = r) :
    Codes (getQIDs upd) (fun vs => vs.length < 2 ^ 16)
      (fun vs => le 2 vs.length ++ (vs.map qid).flatten) (onR fun vs => upd fun _ => vs)
      (fun vs k => k = 1 + (vs.map qid).flatten.length ∨
        ∃ v, vs.getLast? = some v ∧ intSlack 8 k) := by
  have hb : ∀ i, Codes (R := R) (getQID fun f => upd fun xs => xs.modify i f) (fun _ => True) qid
      (onR fun v => upd fun xs => xs.set i v) (fun _ => intSlack 8) := by
    intro i
    have := codes_qid (R := R) (fun f => upd fun xs => xs.modify i f) (by
      intro f g r
      rw [hupd]
      congr 1
      funext xs
      rw [List.modify_modify_eq]; rfl)
    have e (v : QID) (xs : List QID) : xs.modify i (fun _ => v) = xs.set i v :=
      by
        apply List.ext_getElem?
        intro j
        rw [List.getElem?_modify, List.getElem?_set]
        by_cases h : i = j <;> by_cases h2 : j < xs.length <;> simp [h, h2]
    simpa only [e] using this
  refine (codes_list {} hupd hid hb).map id id (fun _ => rfl) ?_ ?_ ?_ ?_
  · simp
  · simp
  · simp
  · intro vs k _ h; exact h

/-! ### whole packets -/

/-- The laws of a packet decoder that ends with the end-of-packet check. -/
structure Pkt {R α : Type} (m : Dec R Unit) (P : α → Prop) (enc : α → Bytes)
    (set : α → Tag × R → Tag × R) (slack : α → Nat → Prop) : Prop where
  fwd : ∀ v, P v → ∀ pre spare u t r, ∃ u',
    m ⟨⟨pre, enc v, spare⟩, u, t, r⟩ =
      .ok () ⟨⟨pre ++ enc v, [], spare⟩, u', (set v (t, r)).1, (set v (t, r)).2⟩
  trail : ∀ v, P v → ∀ pre rest spare u t r, rest ≠ [] → ∃ u',
    m ⟨⟨pre, enc v ++ rest, spare⟩, u, t, r⟩ = .ret (.tooLong rest.length)
      ⟨⟨pre ++ enc v, rest, spare⟩, u', (set v (t, r)).1, (set v (t, r)).2⟩
  inv : ∀ s s', m s = .ok () s' → ∃ v, P v ∧ (s'.t, s'.r) = set v (s.t, s.r) ∧
    s.b.unread <+: enc v ∧ s'.b.unread = []
  empty : ∀ s, s.b.unread = [] → ∃ e s', m s = .ret e s'
  trunc : ∀ v, P v → ∀ w, w <+: enc v → w.length < (enc v).length → ∀ pre spare u t r s',
    m ⟨⟨pre, w, spare⟩, u, t, r⟩ = .ok () s' → slack v ((enc v).length - w.length)

theorem finish_nil {R : Type} (s : DSt R) (h : s.b.unread = []) : finish s = .ok () s := by
  simp [finish, Buffer.len, h]

theorem finish_ok {R : Type} {s s' : DSt R} (h : finish s = .ok () s') : s' = s ∧ s.b.unread = [] := by
  unfold finish at h
  split at h
  · cases h
  · injection h with _ h
    simp only [Buffer.len] at *
    exact ⟨h.symm, List.eq_nil_of_length_eq_zero (by omega)⟩

theorem Codes.last {R α : Type} {m : Dec R Unit} {P : α → Prop} {enc set slack}
    (h : Codes m P enc set slack) : Pkt (m >>= fun _ => finish) P enc set slack where
  fwd := by
    intro v hv pre spare u t r
    obtain ⟨u', hu⟩ := h.fwd v hv pre [] spare u t r
    rw [List.append_nil] at hu
    exact ⟨u', by rw [bind_ok hu, finish_nil _ rfl]⟩
  trail := by
    intro v hv pre rest spare u t r hr
    obtain ⟨u', hu⟩ := h.fwd v hv pre rest spare u t r
    refine ⟨u', ?_⟩
    rw [bind_ok hu]
    simp [finish, Buffer.len, List.length_pos_iff, hr]
  inv := by
    intro s s' hs
    obtain ⟨_, s₁, h1, h2⟩ := bind_eq_ok hs
    obtain ⟨v, hv, hset, hc⟩ := h.inv _ _ h1
    obtain ⟨rfl, he⟩ := finish_ok h2
    refine ⟨v, hv, hset, ?_, he⟩
    rcases hc with hc | hc
    · rw [hc, he, List.append_nil]; exact List.prefix_refl _
    · exact hc.2
  empty := by
    intro s hs
    obtain ⟨e, s', h⟩ := h.empty s hs
    exact ⟨e, s', bind_ret h⟩
  trunc := by
    intro v hv w hw hl pre spare u t r s' hs
    obtain ⟨_, s₁, h1, h2⟩ := bind_eq_ok hs
    exact (h.trunc v hv w hw hl _ _ _ _ _ _ h1).2

theorem Codes.cons {R α β : Type} {m₁ m₂ : Dec R Unit} {P₁ : α → Prop} {P₂ : β → Prop} {e₁ e₂ s₁ s₂ k₁ k₂}
    (h₁ : Codes m₁ P₁ e₁ s₁ k₁) (h₂ : Pkt m₂ P₂ e₂ s₂ k₂) :
    Pkt (m₁ >>= fun _ => m₂) (fun v : α × β => P₁ v.1 ∧ P₂ v.2) (fun v => e₁ v.1 ++ e₂ v.2)
      (fun v tr => s₂ v.2 (s₁ v.1 tr)) (fun v => k₂ v.2) where
  fwd := by
    rintro ⟨a, b⟩ ⟨ha, hb⟩ pre spare u t r
    obtain ⟨u₁, hu₁⟩ := h₁.fwd a ha pre (e₂ b) spare u t r
    obtain ⟨u₂, hu₂⟩ := h₂.fwd b hb (pre ++ e₁ a) spare u₁ (s₁ a (t, r)).1 (s₁ a (t, r)).2
    refine ⟨u₂, ?_⟩
    simp only [List.append_assoc] at hu₁ hu₂ ⊢
    rw [bind_ok hu₁, hu₂]
  trail := by
    rintro ⟨a, b⟩ ⟨ha, hb⟩ pre rest spare u t r hr
    obtain ⟨u₁, hu₁⟩ := h₁.fwd a ha pre (e₂ b ++ rest) spare u t r
    obtain ⟨u₂, hu₂⟩ := h₂.trail b hb (pre ++ e₁ a) rest spare u₁ (s₁ a (t, r)).1 (s₁ a (t, r)).2 hr
    refine ⟨u₂, ?_⟩
    simp only [List.append_assoc] at hu₁ hu₂ ⊢
    rw [bind_ok hu₁, hu₂]
  inv := by
    intro s s' h
    obtain ⟨_, s₁', h1, h2⟩ := bind_eq_ok h
    obtain ⟨a, ha, hsa, hca⟩ := h₁.inv _ _ h1
    obtain ⟨b, hb, hsb, hcb, he⟩ := h₂.inv _ _ h2
    refine ⟨(a, b), ⟨ha, hb⟩, by rw [hsb, hsa], ?_, he⟩
    rcases hca with hca | ⟨hca, -⟩
    · rw [hca]; exact (List.prefix_append_right_inj _).2 hcb
    · obtain ⟨e, s'', h3⟩ := h₂.empty _ hca
      rw [h3] at h2; cases h2
  empty := by
    intro s hs
    obtain ⟨e, s', h⟩ := h₁.empty s hs
    exact ⟨e, s', bind_ret h⟩
  trunc := by
    rintro ⟨a, b⟩ ⟨ha, hb⟩ w hw hl pre spare u t r s' h
    rcases prefix_append_cases hw hl with ⟨hw', hl'⟩ | ⟨w', rfl, hw', hl'⟩
    · obtain ⟨_, s₁', h1, h2⟩ := bind_eq_ok h
      have := (h₁.trunc a ha w hw' hl' _ _ _ _ _ _ h1).1
      obtain ⟨e, s'', h3⟩ := h₂.empty _ this
      rw [h3] at h2; cases h2
    · obtain ⟨u₁, hu₁⟩ := h₁.fwd a ha pre w' spare u t r
      rw [bind_ok hu₁] at h
      have := h₂.trunc b hb w' hw' hl' _ _ _ _ _ _ h
      simpa [Nat.add_sub_add_left] using this

/-- The laws of a packet decoder as a function from buffers. -/
structure Decodes {M : Type} (dec : Buffer → Unm M) (fits : M → Prop) (body : Tag → M → Bytes)
    (slack : M → Nat → Prop) : Prop where
  fwd : ∀ pre spare t m, fits m →
    dec ⟨pre, body t m, spare⟩ = .done m t none ⟨pre ++ body t m, [], spare⟩
  trail : ∀ pre rest spare t m, fits m → rest ≠ [] →
    dec ⟨pre, body t m ++ rest, spare⟩ =
      .done m t (some (.tooLong rest.length)) ⟨pre ++ body t m, rest, spare⟩
  inv : ∀ b m t b', dec b = .done m t none b' → fits m ∧ b.unread <+: body t m ∧ b'.unread = []
  trunc : ∀ pre spare t m w m' t' b', fits m → w <+: body t m → w.length < (body t m).length →
    dec ⟨pre, w, spare⟩ = .done m' t' none b' → slack m ((body t m).length - w.length)

theorem Pkt.decodes {R α : Type} {m : Dec R Unit} {P : α → Prop} {enc set slack}
    {zero : R} {dec : Buffer → Unm R} (hdec : dec = Dec.run m zero)
    (h : Pkt m P enc set slack)
    {fits : R → Prop} {body : Tag → R → Bytes} {slack' : R → Nat → Prop}
    (of : Tag → R → α) (hset : ∀ v tr, (tr = (0, zero)) → v = of (set v tr).1 (set v tr).2)
    (hof : ∀ t r, set (of t r) (0, zero) = (t, r)) (hP : ∀ t r, fits r ↔ P (of t r))
    (henc : ∀ t r, body t r = enc (of t r)) (hslack : ∀ t r k, slack (of t r) k → slack' r k) :
    Decodes dec fits body slack' where
  fwd := by
    intro pre spare t r hr
    obtain ⟨u', hu⟩ := h.fwd (of t r) ((hP t r).1 hr) pre spare (fun _ => 0) 0 zero
    rw [hdec, Dec.run, henc, hu, hof]
  trail := by
    intro pre rest spare t r hr hrest
    obtain ⟨u', hu⟩ := h.trail (of t r) ((hP t r).1 hr) pre rest spare (fun _ => 0) 0 zero hrest
    rw [hdec, Dec.run, henc, hu, hof]
  inv := by
    intro b r t b' hb
    rw [hdec, Dec.run] at hb
    split at hb
    · next s' heq =>
      injection hb with h1 h2 h3 h4
      obtain ⟨v, hv, hs, hp, he⟩ := h.inv _ _ heq
      rw [h1, h2] at hs
      have := hset v _ rfl
      rw [← hs] at this
      subst h4
      exact ⟨(hP t r).2 (this ▸ hv), by rw [henc]; exact this ▸ hp, he⟩
    · injection hb with h1 h2 h3 h4; cases h3
    · cases hb
  trunc := by
    intro pre spare t r w r' t' b' hr hw hl hb
    rw [hdec, Dec.run] at hb
    rw [henc] at hw hl ⊢
    split at hb
    · next s' heq =>
      exact hslack t r _ (h.trunc _ ((hP t r).1 hr) w hw hl _ _ _ _ _ _ heq)
    · injection hb with h1 h2 h3 h4; cases h3
    · cases hb

end Ninep
