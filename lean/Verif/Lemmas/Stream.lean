import Verif.Lemmas.Server

set_option linter.unusedSimpArgs false
set_option linter.unusedVariables false

/-
The `serve` loop separated into what it reads from the connection (`reads`) and what it does with the
packets (`process`), and `reads` related to the packets of the byte stream.
-/

namespace Ninep
open Spec

/-- the packets the loop reads, if no write fails and nothing panics -/
def reads (fin : StreamEnd) (segs : List Bytes) : List (MType × Bytes) × Stop :=
  match hh : readHdr segs with
  | none => ([], .header)
  | some (l, rest) =>
    match hb : readBody (hdrSize l - 7) rest with
    | (body, rest', complete) =>
      if complete = false ∧ fin = .error then ([], .body)
      else ((l.getD 4 0, l.drop 5 ++ body) :: (reads fin rest').1, (reads fin rest').2)
termination_by total segs
decreasing_by
  all_goals
    have h1 := readHdr_total hh
    have h2 := readBody_total (hdrSize l - 7) rest
    rw [hb] at h2
    simp at h2
    omega

theorem reads_none {fin : StreamEnd} {segs : List Bytes} (h : readHdr segs = none) :
    reads fin segs = ([], .header) := by
  rw [reads]
  split
  · rfl
  · rename_i hh; rw [h] at hh; cases hh

theorem reads_some {fin : StreamEnd} {segs rest : List Bytes} {l : Bytes} (h : readHdr segs = some (l, rest)) :
    reads fin segs = if (readBody (hdrSize l - 7) rest).2.2 = false ∧ fin = .error then ([], .body)
      else ((l.getD 4 0, l.drop 5 ++ (readBody (hdrSize l - 7) rest).1) ::
        (reads fin (readBody (hdrSize l - 7) rest).2.1).1, (reads fin (readBody (hdrSize l - 7) rest).2.1).2) := by
  rw [reads]
  split
  · rename_i hh; rw [h] at hh; cases hh
  · rename_i l' r' hh
    rw [h] at hh
    cases hh
    rfl

section
variable {σ : Type}

/-- what the loop does with the packets it reads -/
def process (ns : NineServer σ) (spare : Nat → Bytes) (wfail : Nat → Bool) (k : Nat) (s : Server σ) :
    List (MType × Bytes) → Stop → Served σ
  | [], e => { execd := [], out := [], srv := s, stop := e }
  | (t, w) :: rs, e =>
    match dispatch ns s ⟨[], w, spare k⟩ t with
    | .panic => { execd := [(t, w)], out := [], srv := s, stop := .panic }
    | .done s' b' =>
      if wfail k then { execd := [(t, w)], out := [], srv := s', stop := .write }
      else
        let r := process ns spare wfail (k + 1) s' rs e
        { r with execd := (t, w) :: r.execd, out := b'.bytes :: r.out }

theorem serve_eq (ns : NineServer σ) (spare : Nat → Bytes) (wfail : Nat → Bool) (fin : StreamEnd)
    (k : Nat) (s : Server σ) (segs : List Bytes) :
    serve ns spare wfail fin k s segs = process ns spare wfail k s (reads fin segs).1 (reads fin segs).2 := by
  induction hn : total segs using Nat.strongRecOn generalizing k s segs with
  | ind n ih =>
    rw [serve]
    split
    · rename_i hh
      rw [reads_none hh]
      rfl
    · rename_i l rest hh
      have h1 := readHdr_total hh
      have h2 := readBody_total (hdrSize l - 7) rest
      rw [reads_some hh]
      dsimp only
      split
      · rfl
      · simp only [process]
        cases hd : dispatch ns s ⟨[], l.drop 5 ++ (readBody (hdrSize l - 7) rest).1, spare k⟩ (l.getD 4 0) with
        | panic => rfl
        | done s' b' =>
          dsimp only
          split
          · rfl
          · rw [ih (total (readBody (hdrSize l - 7) rest).2.1) (by omega) (k + 1) s' _ rfl]

end

/-! ### reading -/

theorem flatten_pushSeg (s : Bytes) (rest : List Bytes) : (pushSeg s rest).flatten = s ++ rest.flatten := by
  unfold pushSeg
  cases s <;> simp

theorem readBody_eq (n : Nat) (segs : List Bytes) :
    (readBody n segs).1 = segs.flatten.take n ∧ (readBody n segs).2.1.flatten = segs.flatten.drop n ∧
    ((readBody n segs).2.2 = true ↔ n ≤ segs.flatten.length) := by
  induction segs generalizing n with
  | nil => cases n <;> simp [readBody]
  | cons seg segs ih =>
    cases n with
    | zero => simp [readBody]
    | succ n =>
      unfold readBody
      split
      · rename_i h
        refine ⟨?_, ?_, ?_⟩
        · simp [List.take_append_of_le_length h]
        · rw [flatten_pushSeg]
          simp [List.drop_append_of_le_length h]
        · simp; omega
      · rename_i h
        obtain ⟨h1, h2, h3⟩ := ih (n + 1 - seg.length)
        dsimp only
        refine ⟨?_, ?_, ?_⟩
        · rw [h1, List.flatten_cons, List.take_append, List.take_of_length_le (l := seg) (by omega)]
        · rw [h2, List.flatten_cons, List.drop_append, List.drop_of_length_le (l := seg) (by omega), List.nil_append]
        · rw [h3]
          simp; omega

/-- a header read that succeeds is a body read of 7 bytes -/
theorem readHdr_readBody {segs rest : List Bytes} {l : Bytes} (h : readHdr segs = some (l, rest)) :
    readBody 7 segs = (l, rest, true) := by
  cases segs with
  | nil => cases h
  | cons seg segs =>
    by_cases hl : seg.length < 7
    · simp [readHdr, hl] at h
    · simp only [readHdr, hl, if_false, Option.some.injEq, Prod.mk.injEq] at h
      have : 7 ≤ seg.length := by omega
      simp [readBody, this, h.1, h.2]

theorem readHdr_eq {segs rest : List Bytes} {l : Bytes} (h : readHdr segs = some (l, rest)) :
    l = segs.flatten.take 7 ∧ rest.flatten = segs.flatten.drop 7 ∧ 7 ≤ segs.flatten.length := by
  have h1 := readBody_eq 7 segs
  rw [readHdr_readBody h] at h1
  exact ⟨h1.1, h1.2.1, h1.2.2.1 rfl⟩

theorem getD_take {x : Bytes} {n i : Nat} (h : i < n) (d : Byte) : (x.take n).getD i d = x.getD i d := by
  simp [List.getD_eq_getElem?_getD, List.getElem?_take, h]

theorem hdrSize_eq {x : Bytes} (h : 4 ≤ x.length) : hdrSize (x.take 7) = leVal (x.take 4) := by
  unfold hdrSize
  rw [getD_take (by omega), getD_take (by omega), getD_take (by omega), getD_take (by omega)]
  match x, h with
  | a :: b :: c :: d :: r, _ => simp [leVal]; omega

/-! ### packets of a byte stream -/

theorem frames_short {x : Bytes} (h : x.length < pktLen x) : frames x = ([], x) := by
  rw [frames]; simp [h]

theorem frames_long {x : Bytes} (h : pktLen x ≤ x.length) :
    frames x = ((x.getD 4 0, (x.take (pktLen x)).drop 5) :: (frames (x.drop (pktLen x))).1,
      (frames (x.drop (pktLen x))).2) := by
  rw [frames]; simp [show ¬ x.length < pktLen x by omega]

theorem pktLen_ge (x : Bytes) : 7 ≤ pktLen x := by unfold pktLen; omega

theorem pktLen_append {x y : Bytes} (h : 4 ≤ x.length) : pktLen (x ++ y) = pktLen x := by
  unfold pktLen
  rw [List.take_append_of_le_length h]

theorem frames_append {p x : Bytes} (h : p.length = pktLen p) :
    frames (p ++ x) = ((p.getD 4 0, p.drop 5) :: (frames x).1, (frames x).2) := by
  have h7 := pktLen_ge p
  have hp : pktLen (p ++ x) = p.length := by rw [pktLen_append (by omega), h]
  rw [frames_long (by rw [hp]; simp), hp]
  simp only [List.take_left, List.drop_left]
  have : (p ++ x).getD 4 0 = p.getD 4 0 := by
    simp [List.getD_eq_getElem?_getD, List.getElem?_append_left (show 4 < p.length by omega)]
  rw [this]

/-- What a server can read from a byte stream: its complete packets and, if the peer just closed the
connection, a last packet of which at least the header is there. -/
def readable (fin : StreamEnd) (x : Bytes) : List (MType × Bytes) × Stop :=
  if (frames x).2.length < 7 then ((frames x).1, .header)
  else if fin = .error then ((frames x).1, .body)
  else ((frames x).1 ++ [((frames x).2.getD 4 0, (frames x).2.drop 5)], .header)

theorem readable_cons {fin : StreamEnd} {x : Bytes} (h : pktLen x ≤ x.length) :
    readable fin x = ((x.getD 4 0, (x.take (pktLen x)).drop 5) :: (readable fin (x.drop (pktLen x))).1,
      (readable fin (x.drop (pktLen x))).2) := by
  unfold readable
  rw [frames_long h]
  dsimp only
  split
  · rfl
  · split <;> rfl

theorem readable_short {fin : StreamEnd} {x : Bytes} (h : x.length < 7) : readable fin x = ([], .header) := by
  unfold readable
  rw [frames_short (by have := pktLen_ge x; omega)]
  rw [if_pos h]

theorem readable_error {x : Bytes} (h : x.length < pktLen x) (h7 : 7 ≤ x.length) :
    readable .error x = ([], .body) := by
  unfold readable
  rw [frames_short h, if_neg (by dsimp only; omega), if_pos rfl]

theorem readable_eof {x : Bytes} (h : x.length < pktLen x) (h7 : 7 ≤ x.length) :
    readable .eof x = ([(x.getD 4 0, x.drop 5)], .header) := by
  unfold readable
  rw [frames_short h, if_neg (by dsimp only; omega), if_neg (by simp)]
  rfl

/-- One step of reading in terms of the byte stream. -/
theorem reads_step {fin : StreamEnd} {segs rest : List Bytes} {l : Bytes}
    (h : readHdr segs = some (l, rest)) :
    let x := segs.flatten
    let rest' := (readBody (hdrSize l - 7) rest).2.1
    (pktLen x ≤ x.length ∧ rest'.flatten = x.drop (pktLen x) ∧
      reads fin segs = ((x.getD 4 0, (x.take (pktLen x)).drop 5) :: (reads fin rest').1, (reads fin rest').2)) ∨
    (x.length < pktLen x ∧ 7 ≤ x.length ∧ fin = .error ∧ reads fin segs = ([], .body)) ∨
    (x.length < pktLen x ∧ 7 ≤ x.length ∧ fin = .eof ∧ rest'.flatten = [] ∧
      reads fin segs = ((x.getD 4 0, x.drop 5) :: (reads fin rest').1, (reads fin rest').2)) := by
  intro x rest'
  obtain ⟨h1, h2, h3⟩ := readHdr_eq h
  obtain ⟨g1, g2, g3⟩ := readBody_eq (hdrSize l - 7) rest
  have hsz : hdrSize l = leVal (x.take 4) := by rw [h1]; exact hdrSize_eq (by omega)
  have hx7 : 7 ≤ x.length := h3
  have hg4 : l.getD 4 0 = x.getD 4 0 := by rw [h1]; exact getD_take (by omega) 0
  have hpk : pktLen x = max 7 (hdrSize l) := by rw [hsz]; rfl
  have hbody : l.drop 5 ++ (readBody (hdrSize l - 7) rest).1 = (x.take (pktLen x)).drop 5 := by
    rw [g1, h2, hpk]
    have e1 : x.take (max 7 (hdrSize l)) = x.take 7 ++ (x.drop 7).take (hdrSize l - 7) := by
      have : max 7 (hdrSize l) = 7 + (hdrSize l - 7) := by omega
      rw [this, List.take_add]
    rw [e1, List.drop_append_of_le_length (by simp; omega), ← h1]
  have hr : reads fin segs = if (readBody (hdrSize l - 7) rest).2.2 = false ∧ fin = .error then ([], .body)
      else ((l.getD 4 0, l.drop 5 ++ (readBody (hdrSize l - 7) rest).1) :: (reads fin rest').1, (reads fin rest').2) := by
    rw [reads_some h]
  by_cases hc : hdrSize l - 7 ≤ rest.flatten.length
  · have hc' := g3.2 hc
    have hlen : rest.flatten.length = x.length - 7 := by rw [h2]; simp [x]
    refine .inl ⟨by omega, ?_, ?_⟩
    · show rest'.flatten = _
      rw [g2, h2, List.drop_drop, hpk]
      congr 1; omega
    · rw [hr, if_neg (by rw [hc']; simp), hg4, hbody]
  · have hc' : (readBody (hdrSize l - 7) rest).2.2 = false := by
      cases hb : (readBody (hdrSize l - 7) rest).2.2
      · rfl
      · exact absurd (g3.1 hb) hc
    have hlen : rest.flatten.length = x.length - 7 := by rw [h2]; simp [x]
    refine .inr ?_
    cases fin with
    | error => exact .inl ⟨by omega, h3, rfl, by rw [hr, if_pos ⟨hc', rfl⟩]⟩
    | eof =>
      refine .inr ⟨by omega, h3, rfl, ?_, ?_⟩
      · show rest'.flatten = _
        rw [g2]
        exact List.drop_of_length_le (by omega)
      · rw [hr, if_neg (by simp), hg4, hbody, List.take_of_length_le (by omega)]

theorem readHdr_nil {segs : List Bytes} (h : segs.flatten.length < 7) : readHdr segs = none := by
  cases hr : readHdr segs with
  | none => rfl
  | some p =>
    have := (readHdr_eq (l := p.1) (rest := p.2) hr).2.2
    omega

/-- Whatever the segmentation, only packets of the stream are read, in order, none skipped. -/
theorem reads_prefix (fin : StreamEnd) (segs : List Bytes) :
    (reads fin segs).1 <+: (readable fin segs.flatten).1 := by
  induction hn : total segs using Nat.strongRecOn generalizing segs with
  | ind n ih =>
    cases hh : readHdr segs with
    | none => rw [reads_none hh]; exact List.nil_prefix
    | some p =>
      obtain ⟨l, rest⟩ := p
      have h1 := readHdr_total hh
      have h2 := readBody_total (hdrSize l - 7) rest
      have ih' := ih (total (readBody (hdrSize l - 7) rest).2.1) (by omega) _ rfl
      rcases reads_step (fin := fin) hh with ⟨hl, hf, hr⟩ | ⟨hl, h7, he, hr⟩ | ⟨hl, h7, he, hf, hr⟩
      · rw [hr, readable_cons hl]
        rw [hf] at ih'
        dsimp only
        exact List.prefix_cons_inj _ |>.2 ih'
      · rw [hr]; exact List.nil_prefix
      · rw [hr, reads_none (readHdr_nil (by rw [hf]; simp))]
        subst he
        rw [readable_eof hl h7]
        exact List.prefix_refl _

theorem pushSeg_ne {s : Bytes} {rest : List Bytes} (h : ∀ x ∈ rest, x ≠ []) : ∀ x ∈ pushSeg s rest, x ≠ [] := by
  unfold pushSeg
  cases s with
  | nil => simpa using h
  | cons a s =>
    intro x hx
    simp only [List.isEmpty_cons, Bool.false_eq_true, if_false, List.mem_cons] at hx
    rcases hx with rfl | hx
    · simp
    · exact h x hx

theorem readBody_ne (n : Nat) {segs : List Bytes} (h : ∀ x ∈ segs, x ≠ []) :
    ∀ x ∈ (readBody n segs).2.1, x ≠ [] := by
  induction segs generalizing n with
  | nil => cases n <;> simp [readBody]
  | cons seg segs ih =>
    cases n with
    | zero => exact h
    | succ n =>
      unfold readBody
      have h' : ∀ x ∈ segs, x ≠ [] := fun x hx => h x (List.mem_cons_of_mem _ hx)
      split
      · exact pushSeg_ne h'
      · exact ih _ h'

/-- Each later cut of what is left over is a cut of the whole. -/
theorem readBody_cut (n : Nat) (segs a' b' : List Bytes) (hn : n ≤ segs.flatten.length)
    (h : (readBody n segs).2.1 = a' ++ b') (ha : a' ≠ []) :
    ∃ a, segs = a ++ b' ∧ a.flatten = segs.flatten.take n ++ a'.flatten := by
  induction segs generalizing n with
  | nil =>
    cases n <;> simp only [readBody] at h
    · cases a' <;> simp at h; exact absurd rfl ha
    · simp at hn
  | cons seg segs ih =>
    cases n with
    | zero => exact ⟨a', by simpa [readBody] using h, by simp⟩
    | succ n =>
      unfold readBody at h
      by_cases hs : n + 1 ≤ seg.length
      · rw [if_pos hs] at h
        dsimp only at h
        unfold pushSeg at h
        by_cases he : (seg.drop (n + 1)).isEmpty
        · rw [if_pos he] at h
          have : seg.length = n + 1 := by simp at he; omega
          refine ⟨seg :: a', by simp [h], ?_⟩
          simp [List.take_append_of_le_length hs]
          rw [List.take_of_length_le (by omega)]
        · rw [if_neg he] at h
          cases a' with
          | nil => exact absurd rfl ha
          | cons x a' =>
            simp only [List.cons_append, List.cons.injEq] at h
            refine ⟨seg :: a', by simp [h.2], ?_⟩
            simp only [List.flatten_cons, List.take_append_of_le_length hs, ← h.1]
            rw [← List.append_assoc, List.take_append_drop]
      · rw [if_neg hs] at h
        dsimp only at h
        simp only [List.flatten_cons, List.length_append] at hn
        obtain ⟨a, h1, h2⟩ := ih (n + 1 - seg.length) (by omega) h
        refine ⟨seg :: a, by simp [h1], ?_⟩
        rw [List.flatten_cons, h2, List.flatten_cons, List.take_append,
          List.take_of_length_le (l := seg) (by omega), List.append_assoc]

theorem flatten_ne {segs : List Bytes} (h : ∀ x ∈ segs, x ≠ []) (hn : segs ≠ []) : segs.flatten ≠ [] := by
  cases segs with
  | nil => exact absurd rfl hn
  | cons a r =>
    have := h a (by simp)
    simp [this]

theorem aligned_hdr {segs : List Bytes} (ha : Aligned segs) (h7 : 7 ≤ segs.flatten.length) :
    ∃ l rest, readHdr segs = some (l, rest) := by
  cases segs with
  | nil => simp at h7
  | cons seg more =>
    have : ¬ seg.length < 7 := by
      intro hl
      cases more with
      | nil => simp at h7; omega
      | cons x more =>
        have h := ha.2 [seg] (x :: more) rfl (by simp)
        have hf : frames [seg].flatten = ([], seg) := by
          rw [frames_short]
          · simp
          · have := pktLen_ge [seg].flatten
            simp at *; omega
        rw [hf] at h
        rcases h with h | h
        · exact ha.1 seg (by simp) h
        · exact absurd h (by dsimp only; omega)
    exact ⟨_, _, by rw [readHdr, if_neg this]⟩

theorem aligned_rest {segs rest : List Bytes} {l : Bytes} (ha : Aligned segs)
    (h : readHdr segs = some (l, rest)) (hl : pktLen segs.flatten ≤ segs.flatten.length) :
    Aligned (readBody (hdrSize l - 7) rest).2.1 := by
  obtain ⟨h1, h2, h3⟩ := readHdr_eq h
  have hb := readHdr_readBody h
  have hne : ∀ x ∈ rest, x ≠ [] := by
    have := readBody_ne 7 ha.1
    rw [hb] at this; exact this
  have hne' := readBody_ne (hdrSize l - 7) hne
  have hpk : pktLen segs.flatten = max 7 (hdrSize l) := by
    rw [h1, hdrSize_eq (by omega)]; rfl
  refine ⟨hne', fun a' b' hab hb' => ?_⟩
  by_cases ha' : a' = []
  · subst ha'
    left
    show (frames ([] : Bytes)).2 = []
    rw [frames_short (by have := pktLen_ge []; simp only [List.length_nil]; omega)]
  · have hlen : rest.flatten.length = segs.flatten.length - 7 := by rw [h2]; simp
    obtain ⟨a1, e1, e2⟩ := readBody_cut _ _ _ _ (by omega) hab ha'
    have ha1 : a1 ≠ [] := by
      rintro rfl
      have hz : a'.flatten = [] := by
        have := congrArg List.length e2
        simp only [List.flatten_nil, List.length_nil, List.length_append] at this
        exact List.eq_nil_of_length_eq_zero (by omega)
      exact flatten_ne (fun x hx => hne' x (by rw [hab]; simp [hx])) ha' hz
    have hb2 : (readBody 7 segs).2.1 = a1 ++ b' := by rw [hb]; exact e1
    obtain ⟨a, e3, e4⟩ := readBody_cut 7 segs a1 b' h3 hb2 ha1
    have := ha.2 a b' e3 hb'
    have hfl : a.flatten = segs.flatten.take (pktLen segs.flatten) ++ a'.flatten := by
      rw [e4, e2, h2, hpk, ← List.append_assoc]
      congr 1
      have : max 7 (hdrSize l) = 7 + (hdrSize l - 7) := by omega
      rw [this, List.take_add]
    have hp7 := pktLen_ge segs.flatten
    have hp : (segs.flatten.take (pktLen segs.flatten)).length = pktLen (segs.flatten.take (pktLen segs.flatten)) := by
      have : pktLen (segs.flatten.take (pktLen segs.flatten)) = pktLen segs.flatten := by
        conv => rhs; rw [← List.take_append_drop (pktLen segs.flatten) segs.flatten]
        rw [pktLen_append]
        rw [List.length_take]; omega
      rw [this, List.length_take]; omega
    rw [hfl, frames_append hp] at this
    exact this

/-- A segmentation that leaves the headers alone does not matter. -/
theorem reads_aligned (fin : StreamEnd) (segs : List Bytes) (ha : Aligned segs) :
    reads fin segs = readable fin segs.flatten := by
  induction hn : total segs using Nat.strongRecOn generalizing segs with
  | ind n ih =>
    by_cases h7 : segs.flatten.length < 7
    · rw [reads_none (readHdr_nil h7), readable_short h7]
    · obtain ⟨l, rest, hh⟩ := aligned_hdr ha (by omega)
      have h1 := readHdr_total hh
      have h2 := readBody_total (hdrSize l - 7) rest
      rcases reads_step (fin := fin) hh with ⟨hl, hf, hr⟩ | ⟨hl, _, he, hr⟩ | ⟨hl, _, he, hf, hr⟩
      · have ih' := ih (total (readBody (hdrSize l - 7) rest).2.1) (by omega) _ (aligned_rest ha hh hl) rfl
        rw [hr, readable_cons hl, ih', hf]
      · subst he
        rw [hr, readable_error hl (by omega)]
      · subst he
        rw [hr, reads_none (readHdr_nil (by rw [hf]; simp)), readable_eof hl (by omega)]

theorem frames_length (x : Bytes) : ∀ p ∈ (frames x).1, 2 ≤ p.2.length := by
  induction hn : x.length using Nat.strongRecOn generalizing x with
  | ind n ih =>
    by_cases h : x.length < pktLen x
    · rw [frames_short h]; simp
    · have := pktLen_ge x
      rw [frames_long (by omega)]
      intro p hp
      simp only [List.mem_cons] at hp
      rcases hp with rfl | hp
      · simp; omega
      · exact ih (x.drop (pktLen x)).length (by simp; omega) _ rfl p hp

theorem readable_length (fin : StreamEnd) (x : Bytes) : ∀ p ∈ (readable fin x).1, 2 ≤ p.2.length := by
  have h := frames_length x
  unfold readable
  split
  · exact h
  · split
    · exact h
    · intro p hp
      simp only [List.mem_append, List.mem_singleton] at hp
      rcases hp with hp | rfl
      · exact h p hp
      · simp; omega

/-- every packet the server gets has its two tag bytes -/
theorem reads_length (fin : StreamEnd) (segs : List Bytes) : ∀ p ∈ (reads fin segs).1, 2 ≤ p.2.length :=
  fun p hp => readable_length fin segs.flatten p ((reads_prefix fin segs).subset hp)

end Ninep
