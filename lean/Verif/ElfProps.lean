import Verif.Elf
import Mathlib.Data.List.Induction

/-! # C66: sections and segments of every ELF file -/
namespace Verif.Elf
open Verif.ByteReader
open Verif.DwarfLine (cstr encodeFixed_len cstr_spec)
open Verif.DwarfInfo (StrIn)

theorem At.drop {bs xs : List Nat} {off : Nat} (h : At bs off xs) : ∃ post, bs.drop off = xs ++ post := by
  obtain ⟨pre, post, rfl, rfl⟩ := h
  exact ⟨post, by simp⟩

theorem At.bound {bs xs : List Nat} {off : Nat} (h : At bs off xs) : off + xs.length ≤ bs.length := by
  obtain ⟨pre, post, rfl, rfl⟩ := h
  simp

theorem At.take {bs xs : List Nat} {off n : Nat} (h : At bs off xs) (hn : xs.length = n) : (bs.drop off).take n = xs := by
  obtain ⟨post, hp⟩ := h.drop
  rw [hp, ← hn, List.take_left]

theorem At.get {bs xs : List Nat} {off i v : Nat} (h : At bs off xs) (hv : xs[i]? = some v) : bs[off + i]? = some v := by
  obtain ⟨pre, post, rfl, rfl⟩ := h
  have : i < xs.length := by
    rw [List.getElem?_eq_some_iff] at hv
    exact hv.1
  rw [List.getElem?_append_right (by omega), Nat.add_sub_cancel_left, List.getElem?_append_left this, hv]

theorem le_len (n v : Nat) : (le n v).length = n := encodeFixed_len _ _ _

theorem readFields_le (n v : Nat) (hn : n = 1 ∨ n = 2 ∨ n = 4 ∨ n = 8) (hv : v < 256 ^ n) (ws rest : List Nat) :
    readFields (n :: ws) (le n v ++ rest) = (readFields ws rest).map (v :: ·) := by
  have h := fixed_roundtrip .little n v (by omega) hv rest
  have hd : (le n v ++ rest).drop n = rest := List.drop_left' (le_len n v)
  show (readFixed .little n (encodeFixed .little n v ++ rest)).bind
    (fun v' => (readFields ws ((le n v ++ rest).drop n)).map (v' :: ·)) = _
  rw [h, Option.bind_some, hd]

theorem Ehdr.encode_len (w : Nat) (h : Ehdr) : (h.encode w).length = 24 + 3 * w := by
  simp only [Ehdr.encode, List.length_append, le_len]
  omega

theorem Shdr.encode_len (w : Nat) (hw : w = 4 ∨ w = 8) (s : Shdr) : (s.encode w).length = if w = 8 then 64 else 40 := by
  simp only [Shdr.encode, List.length_append, le_len]
  rcases hw with rfl | rfl <;> simp

theorem Phdr.encode_len (w : Nat) (hw : w = 4 ∨ w = 8) (p : Phdr) : (p.encode w).length = if w = 8 then 56 else 32 := by
  rcases hw with rfl | rfl <;> simp [Phdr.encode, Phdr.encode32, Phdr.encode64, List.length_append, le_len]

theorem Ehdr.read_ok (w : Nat) (hw : w = 4 ∨ w = 8) (h : Ehdr) (hf : h.Fits w) (rest : List Nat) :
    Ehdr.read w (h.encode w ++ rest) = some h := by
  obtain ⟨⟨a1, a2, a3, a4, a5, a6, a7, a8⟩, ⟨b1, b2⟩, c1, c2, c3⟩ := hf
  have hw' : w = 1 ∨ w = 2 ∨ w = 4 ∨ w = 8 := by omega
  have h2 : ∀ x, x < 65536 → x < 256 ^ 2 := fun x h => by norm_num; exact h
  have h4 : ∀ x, x < 2 ^ 32 → x < 256 ^ 4 := fun x h => by norm_num; norm_num at h; exact h
  unfold Ehdr.read Ehdr.encode
  simp only [List.append_assoc]
  rw [readFields_le _ _ (by omega) (h2 _ a1), readFields_le _ _ (by omega) (h2 _ a2), readFields_le _ _ (by omega) (h4 _ b1),
    readFields_le _ _ hw' c1, readFields_le _ _ hw' c2, readFields_le _ _ hw' c3, readFields_le _ _ (by omega) (h4 _ b2),
    readFields_le _ _ (by omega) (h2 _ a3), readFields_le _ _ (by omega) (h2 _ a4), readFields_le _ _ (by omega) (h2 _ a5),
    readFields_le _ _ (by omega) (h2 _ a6), readFields_le _ _ (by omega) (h2 _ a7), readFields_le _ _ (by omega) (h2 _ a8)]
  rfl

theorem Shdr.read_ok (w : Nat) (hw : w = 4 ∨ w = 8) (s : Shdr) (hf : s.Fits w) (rest : List Nat) :
    Shdr.read w (s.encode w ++ rest) = some s := by
  obtain ⟨⟨a1, a2, a3, a4⟩, c1, c2, c3, c4, c5, c6⟩ := hf
  have hw' : w = 1 ∨ w = 2 ∨ w = 4 ∨ w = 8 := by omega
  have h4 : ∀ x, x < 2 ^ 32 → x < 256 ^ 4 := fun x h => by norm_num; norm_num at h; exact h
  unfold Shdr.read Shdr.encode
  simp only [List.append_assoc]
  rw [readFields_le _ _ (by omega) (h4 _ a1), readFields_le _ _ (by omega) (h4 _ a2),
    readFields_le _ _ hw' c1, readFields_le _ _ hw' c2, readFields_le _ _ hw' c3, readFields_le _ _ hw' c4,
    readFields_le _ _ (by omega) (h4 _ a3), readFields_le _ _ (by omega) (h4 _ a4), readFields_le _ _ hw' c5,
    readFields_le _ _ hw' c6]
  rfl

theorem Phdr.read_ok (w : Nat) (hw : w = 4 ∨ w = 8) (p : Phdr) (hf : p.Fits w) (rest : List Nat) :
    Phdr.read w (p.encode w ++ rest) = some p := by
  obtain ⟨⟨a1, a2⟩, c1, c2, c3, c4, c5, c6⟩ := hf
  have h4 : ∀ x, x < 2 ^ 32 → x < 256 ^ 4 := fun x h => by norm_num; norm_num at h; exact h
  unfold Phdr.read Phdr.encode
  rcases hw with rfl | rfl
  · rw [if_neg (by omega), if_neg (by omega)]
    unfold Phdr.encode32
    simp only [List.append_assoc]
    rw [readFields_le _ _ (by omega) (h4 _ a1), readFields_le _ _ (by omega) c1, readFields_le _ _ (by omega) c2,
      readFields_le _ _ (by omega) c3, readFields_le _ _ (by omega) c4, readFields_le _ _ (by omega) c5,
      readFields_le _ _ (by omega) (h4 _ a2), readFields_le _ _ (by omega) c6]
    rfl
  · rw [if_pos rfl, if_pos rfl]
    unfold Phdr.encode64
    simp only [List.append_assoc]
    rw [readFields_le _ _ (by omega) (h4 _ a1), readFields_le _ _ (by omega) (h4 _ a2), readFields_le _ _ (by omega) c1,
      readFields_le _ _ (by omega) c2, readFields_le _ _ (by omega) c3, readFields_le _ _ (by omega) c4,
      readFields_le _ _ (by omega) c5, readFields_le _ _ (by omega) c6]
    rfl

theorem mapM_range {α : Type} (f : Nat → Option α) (xs : List α) (h : ∀ i x, xs[i]? = some x → f i = some x) :
    (List.range xs.length).mapM f = some xs := by
  induction xs using List.reverseRecOn with
  | nil => rfl
  | append_singleton ys y ih =>
    rw [List.length_append, List.length_singleton, List.range_succ, List.mapM_append, ih]
    · simp only [Option.bind_eq_bind, Option.bind_some, List.mapM_cons, List.mapM_nil]
      rw [h ys.length y (by simp)]
      rfl
    · intro i x hx
      apply h
      rw [List.getElem?_append_left, hx]
      exact (List.getElem?_eq_some_iff.1 hx).1

theorem readArray_ok {α : Type} (read : List Nat → Option α) (bs : List Nat) (off size : Nat) (xs : List α)
    (h : ∀ i x, xs[i]? = some x → ∃ b, At bs (off + i * size) b ∧ b.length = size ∧ ∀ rest, read (b ++ rest) = some x) :
    readArray read bs off size xs.length = some xs := by
  unfold readArray
  rw [if_pos]
  · apply mapM_range
    intro i x hx
    obtain ⟨b, hb, _, hr⟩ := h i x hx
    obtain ⟨post, hp⟩ := hb.drop
    rw [hp, hr]
  · cases hn : xs.length with
    | zero => exact .inr rfl
    | succ n =>
      refine .inl ?_
      have hlt : n < xs.length := by omega
      obtain ⟨b, hb, hl, _⟩ := h n xs[n] (List.getElem?_eq_getElem hlt)
      have := hb.bound
      rw [hl] at this
      calc off + (n + 1) * size = off + n * size + size := by ring
        _ ≤ _ := this

/-- The object for an ELF file. -/
def Reader.good (bs : List Nat) (w : Nat) (dwp : Bool) (eh : Ehdr) (secs : List (Shdr × List Nat)) (segs : List Phdr)
    (first : Shdr) : Reader := ⟨w, bs, dwp, eh, first, some (secs.map Prod.fst), some segs⟩

variable {bs : List Nat} {w : Nat} {eh : Ehdr} {secs : List (Shdr × List Nat)} {segs : List Phdr} {k : Nat} {names : List Nat}

theorem IsElf.pos (h : IsElf bs w eh secs segs k names) : k < secs.length := by
  obtain ⟨t, ht, _⟩ := h.strtab
  exact (List.getElem?_eq_some_iff.1 ht).1

theorem IsElf.width_eq (h : IsElf bs w eh secs segs k names) : width bs = some w := by
  have hlen := h.header.bound
  rw [Ehdr.encode_len] at hlen
  have hid := h.ident
  have ht : bs.take 4 = [0x7f, 0x45, 0x4c, 0x46] := by
    obtain ⟨post, hp⟩ := hid.drop
    rw [List.drop_zero] at hp
    rw [hp]
    rfl
  have h4 : bs[4]? = some (if w = 8 then 2 else 1) := by
    have := hid.get (i := 4) (v := if w = 8 then 2 else 1) rfl
    simpa using this
  have h5 : bs[5]? = some 1 := by
    have := hid.get (i := 5) (v := 1) rfl
    simpa using this
  have hl : 16 ≤ bs.length := by omega
  have hb : ∀ c, isArch c bs = (some (if w = 8 then 2 else 1) == some c) := by
    intro c
    unfold isArch
    rw [ht, h4, h5]
    simp [hl]
  unfold width
  rw [hb, hb]
  rcases h.class_ with rfl | rfl <;> decide

theorem IsElf.parse_ok (h : IsElf bs w eh secs segs k names) (dwp : Bool) :
    ∃ first, parse w bs dwp = some (.good bs w dwp eh secs segs first) ∧ numSecs eh first = secs.length ∧
      numPhs eh first = segs.length ∧ strIdx eh first = k := by
  have hlen := h.header.bound
  rw [Ehdr.encode_len] at hlen
  have hk := h.pos
  obtain ⟨post, hp⟩ := h.header.drop
  have hsz : shSize w = if w = 8 then 64 else 40 := rfl
  have hpz : phSize w = if w = 8 then 56 else 32 := rfl
  have hread : Ehdr.read w ((bs ++ List.replicate 64 0).drop 16) = some eh := by
    rw [List.drop_append_of_le_length (by omega), hp, List.append_assoc]
    exact Ehdr.read_ok w h.class_ eh h.fits _
  have hsh : readArray (Shdr.read w) bs eh.shoff (shSize w) secs.length = some (secs.map Prod.fst) := by
    have := readArray_ok (Shdr.read w) bs eh.shoff (shSize w) (secs.map Prod.fst) (by
      intro i x hx
      rw [List.getElem?_map, Option.map_eq_some_iff] at hx
      obtain ⟨s, hs, rfl⟩ := hx
      obtain ⟨ha, hf⟩ := h.sections i s hs
      exact ⟨_, ha, by rw [Shdr.encode_len w h.class_, hsz], fun rest => Shdr.read_ok w h.class_ _ hf rest⟩)
    rwa [List.length_map] at this
  have hph : readArray (Phdr.read w) bs eh.phoff (phSize w) segs.length = some segs :=
    readArray_ok (Phdr.read w) bs eh.phoff (phSize w) segs (by
      intro i x hx
      obtain ⟨ha, hf⟩ := h.segments i x hx
      exact ⟨_, ha, by rw [Phdr.encode_len w h.class_, hpz], fun rest => Phdr.read_ok w h.class_ _ hf rest⟩)
  -- the first section header
  obtain ⟨s0, hs0⟩ : ∃ s0, secs[0]? = some s0 := ⟨secs[0], List.getElem?_eq_getElem (by omega)⟩
  have hfirst : ∃ first, (if eh.shnum = 0 then
      (if eh.shoff + shSize w ≤ bs.length then Shdr.read w (bs.drop eh.shoff) else none) else some default) = some first ∧
      (eh.shnum = 0 → first = s0.1) := by
    by_cases hz : eh.shnum = 0
    · rw [if_pos hz]
      obtain ⟨ha, hf⟩ := h.sections 0 s0 hs0
      rw [Nat.zero_mul, Nat.add_zero] at ha
      have hb := ha.bound
      rw [Shdr.encode_len w h.class_, ← hsz] at hb
      rw [if_pos hb]
      obtain ⟨post, hp⟩ := ha.drop
      exact ⟨s0.1, by rw [hp]; exact Shdr.read_ok w h.class_ _ hf _, fun _ => rfl⟩
    · rw [if_neg hz]
      exact ⟨default, rfl, fun h => absurd h hz⟩
  obtain ⟨first, hf1, hf2⟩ := hfirst
  have hn : numSecs eh first = secs.length := by
    unfold numSecs
    rcases h.nsecs with hc | ⟨hc, s, hs, hc'⟩
    · rw [if_neg (by omega), hc]
    · rw [if_pos hc, hf2 hc]
      rw [hs0] at hs
      cases hs
      exact hc'
  have hm : numPhs eh first = segs.length := by
    unfold numPhs
    rcases h.nsegs with ⟨hc, hc'⟩ | ⟨hc, hz, s, hs, hi, hne⟩
    · rw [if_neg (by omega), hc]
    · rw [hs0] at hs
      cases hs
      have hne' : s0.1.info ≠ 0 := by
        rw [hi]
        exact fun h => hne (List.eq_nil_of_length_eq_zero h)
      rw [hf2 hz, if_pos ⟨hz, hc, hne'⟩, hi]
  have hstr : strIdx eh first = k := by
    unfold strIdx
    rcases h.nstr with ⟨hc, hc'⟩ | ⟨hc, hz, s, hs, hi⟩
    · split
      · rw [if_neg (by omega), hn, if_neg (by omega), hc]
      · exact hc
    · rw [hs0] at hs
      cases hs
      rw [if_pos hz, if_pos hc, hf2 hz, hi]
  refine ⟨first, ?_, hn, hm, hstr⟩
  unfold parse
  rw [hread, Option.bind_some, if_neg, if_neg, if_neg h.shoff, hf1, Option.bind_some, if_neg, hn, hm, hsh, hph]
  · rfl
  · rw [hn, hm, hsz, hpz]
    have := h.small
    split <;> omega
  · have := h.type
    omega
  · unfold ehSize
    rcases h.class_ with rfl | rfl
    · rw [if_neg (by omega)]
      omega
    · rw [if_pos rfl]
      omega

/-- The section has the contents `c`, and they can be mapped: an empty section at a page boundary cannot. -/
def Contents (bs : List Nat) (s : Shdr) (c : List Nat) : Prop :=
  At bs s.offset c ∧ c.length = s.size ∧ ¬ (s.size = 0 ∧ s.offset % 4096 = 0)

theorem mapped_ok {r : Reader} {s : Shdr} {c : List Nat} (h : Contents r.bs s c) : r.mapped s = some c := by
  obtain ⟨h1, h2, h3⟩ := h
  unfold Reader.mapped
  have := h1.bound
  rw [if_neg (by omega), if_pos (by omega), h1.take h2]

section good
variable {dwp : Bool} {first : Shdr}

theorem shdr_good (i : Nat) : (Reader.good bs w dwp eh secs segs first).shdr i = (secs[i]?).map Prod.fst := by
  show (secs.map Prod.fst)[i]? = _
  rw [List.getElem?_map]

theorem IsElf.strtab_ok (h : IsElf bs w eh secs segs k names) (hn : numSecs eh first = secs.length) (hs : strIdx eh first = k) :
    (Reader.good bs w dwp eh secs segs first).strtab = some names := by
  obtain ⟨t, ht, ha, hl⟩ := h.strtab
  have hpos : names.length ≠ 0 := by
    have hmem : t ∈ secs := List.mem_of_getElem? ht
    obtain ⟨pre, post, hp, _⟩ := h.names t hmem
    rw [hp]
    simp
  unfold Reader.strtab
  show (if strIdx eh first < numSecs eh first then _ else none) = _
  rw [if_pos (by rw [hn, hs]; exact h.pos)]
  show ((Reader.good bs w dwp eh secs segs first).shdr (strIdx eh first)).bind _ = _
  rw [hs, shdr_good, ht, Option.map_some, Option.bind_some]
  exact mapped_ok ⟨ha, hl, fun hc => hpos (by omega)⟩

theorem IsElf.nameAt_ok (h : IsElf bs w eh secs segs k names) (hn : numSecs eh first = secs.length) (hs : strIdx eh first = k)
    {off : Nat} {n : List Nat} (ho : StrIn names off n) :
    (Reader.good bs w dwp eh secs segs first).nameAt off = some n := by
  unfold Reader.nameAt
  rw [h.strtab_ok hn hs, Option.bind_some]
  obtain ⟨pre, post, rfl, rfl, hz⟩ := ho
  rw [if_pos (by simp), List.drop_left, cstr_spec _ _ hz]
  rfl

theorem IsElf.section_ok (h : IsElf bs w eh secs segs k names) (hn : numSecs eh first = secs.length) (hs : strIdx eh first = k)
    {i : Nat} {s : Shdr × List Nat} (hi : secs[i]? = some s) {c : List Nat} (hc : Contents bs s.1 c) :
    (Reader.good bs w dwp eh secs segs first).section i = some c := by
  unfold Reader.section
  show (if i < numSecs eh first then _ else none) = _
  rw [hn, if_pos (List.getElem?_eq_some_iff.1 hi).1, shdr_good, hi, Option.map_some, Option.bind_some]
  have hm : (Reader.good bs w dwp eh secs segs first).mapped s.1 = some c := mapped_ok hc
  show (if i = strIdx eh first then _ else _) = _
  split
  · exact hm
  · rw [h.strtab_ok hn hs, Option.bind_some]
    obtain ⟨pre, post, hp, hl, _⟩ := h.names s (List.mem_of_getElem? hi)
    rw [if_pos, hm]
    rw [hp, ← hl]
    simp

theorem find_good (h : IsElf bs w eh secs segs k names) (hn : numSecs eh first = secs.length) (hs : strIdx eh first = k)
    (name : List Nat) (ks : List Nat) (hks : ∀ i ∈ ks, i < secs.length) :
    (Reader.good bs w dwp eh secs segs first).find name ks =
      some (ks.find? fun i => match secs[i]? with | some s => namesMatch name s.2 | none => false) := by
  induction ks with
  | nil => rfl
  | cons i ks ih =>
    obtain ⟨s, hi⟩ : ∃ s, secs[i]? = some s := ⟨_, List.getElem?_eq_getElem (hks i (by simp))⟩
    unfold Reader.find
    rw [shdr_good, hi, Option.map_some, Option.bind_some, h.nameAt_ok hn hs (h.names s (List.mem_of_getElem? hi)), Option.bind_some]
    rw [List.find?_cons, ih fun j hj => hks j (by simp [hj])]
    simp only [hi]
    cases namesMatch name s.2 <;> simp
end good

/-- A section named `sh` is what a caller who asks for `name` gets: the same name, or the old name of a compressed section. -/
def Named (name sh : List Nat) : Prop := sh = name ∨ ∃ x, name = str ".debug_" ++ x ∧ sh = str ".zdebug_" ++ x

theorem namesMatch_iff (name sh : List Nat) : namesMatch name sh = true ↔ Named name sh := by
  unfold namesMatch Named
  have e7 : (str ".debug_").length = 7 := rfl
  have e8 : (str ".zdebug_").length = 8 := rfl
  by_cases hc : ((str ".debug_").isPrefixOf name && (str ".zdebug_").isPrefixOf sh) = true
  · rw [if_pos hc]
    rw [Bool.and_eq_true, List.isPrefixOf_iff_prefix, List.isPrefixOf_iff_prefix] at hc
    obtain ⟨⟨x, rfl⟩, ⟨y, rfl⟩⟩ := hc
    rw [List.drop_left' e7, List.drop_left' e8, beq_iff_eq]
    constructor
    · rintro rfl
      exact .inr ⟨x, rfl, rfl⟩
    · rintro (h | ⟨z, h1, h2⟩)
      · exfalso
        have := congrArg (fun l => l[1]?) h
        revert this
        show some 122 = some 100 → False
        simp
      · rw [List.append_cancel_left h1, List.append_cancel_left h2]
  · rw [if_neg hc, beq_iff_eq]
    constructor
    · rintro rfl
      exact .inl rfl
    · rintro (h | ⟨x, rfl, rfl⟩)
      · exact h.symm
      · exact absurd (by simp [List.isPrefixOf_iff_prefix]) hc

theorem order_eq {dwp : Bool} {first : Shdr} (hn : numSecs eh first = secs.length) :
    (Reader.good bs w dwp eh secs segs first).order =
      if dwp then (List.range secs.length).reverse else List.range secs.length := by
  unfold Reader.order
  show (List.range (numSecs eh first)).map (fun k => if dwp then numSecs eh first - k - 1 else k) = _
  rw [hn]
  cases dwp
  · simp
  · simp only [if_true]
    apply List.ext_getElem
    · simp
    · intro i h1 h2
      simp
      omega

/-- The section with number `i` is the one to find by name: the first one in the file (in a `.dwp` file the last one). -/
def Chosen (dwp : Bool) (secs : List (Shdr × List Nat)) (name : List Nat) (i : Nat) (s : Shdr) : Prop :=
  (∃ n, secs[i]? = some (s, n) ∧ Named name n) ∧
  ∀ j t, secs[j]? = some t → Named name t.2 → if dwp then j ≤ i else i ≤ j

theorem hasSuffix_iff (s suf : List Nat) : hasSuffix s suf = true ↔ ∃ x, s = x ++ suf := by
  unfold hasSuffix
  rw [Bool.and_eq_true, decide_eq_true_iff, beq_iff_eq]
  constructor
  · rintro ⟨h1, h2⟩
    exact ⟨s.take (s.length - suf.length), by conv_lhs => rw [← List.take_append_drop (s.length - suf.length) s, h2]⟩
  · rintro ⟨x, rfl⟩
    refine ⟨by simp, ?_⟩
    rw [List.length_append, Nat.add_sub_cancel, List.drop_left]

/-- The path is one that is opened: not a deleted file and not a part of the kernel. -/
def Opens (path : List Nat) : Prop :=
  (¬ ∃ x, path = x ++ str " (deleted)") ∧ path ≠ str "[vdso]" ∧ path ≠ str "[vsyscall]"

theorem openFile_ok {path : List Nat} (h : Opens path) (disk : Option (List Nat)) : openFile path disk = disk := by
  obtain ⟨h1, h2, h3⟩ := h
  unfold openFile
  rw [← hasSuffix_iff] at h1
  rw [if_neg h1, if_neg h2, if_neg h3]

theorem IsElf.reader_ok (h : IsElf bs w eh secs segs k names) (path : List Nat) :
    ∃ first, reader path bs = some (some (.good bs w (hasSuffix path (str ".dwp")) eh secs segs first)) ∧
      numSecs eh first = secs.length ∧ numPhs eh first = segs.length ∧ strIdx eh first = k := by
  obtain ⟨first, h1, h2⟩ := h.parse_ok (hasSuffix path (str ".dwp"))
  refine ⟨first, ?_, h2⟩
  unfold reader
  rw [h.width_eq]
  simp only
  rw [h1]
  rfl

theorem find_chosen {dwp : Bool} {name : List Nat} {i : Nat} {s : Shdr} (hc : Chosen dwp secs name i s) :
    (if dwp then (List.range secs.length).reverse else List.range secs.length).find?
      (fun i => match secs[i]? with | some s => namesMatch name s.2 | none => false) = some i := by
  obtain ⟨⟨n, hi, hn⟩, hmin⟩ := hc
  have hlt := (List.getElem?_eq_some_iff.1 hi).1
  have hthis : (match secs[i]? with | some s => namesMatch name s.2 | none => false) = true := by
    rw [hi]
    exact (namesMatch_iff _ _).2 hn
  have hothers : ∀ j, (match secs[j]? with | some s => namesMatch name s.2 | none => false) = true → if dwp then j ≤ i else i ≤ j := by
    intro j hj
    cases hs : secs[j]? with
    | none => rw [hs] at hj; cases hj
    | some t =>
      rw [hs] at hj
      exact hmin j t hs ((namesMatch_iff _ _).1 hj)
  rw [List.find?_eq_some_iff_append]
  refine ⟨hthis, ?_⟩
  cases dwp
  · refine ⟨List.range i, (List.range (secs.length - i - 1)).map (i + 1 + ·), ?_, ?_⟩
    · simp only [Bool.false_eq_true, if_false]
      have : secs.length = i + (1 + (secs.length - i - 1)) := by omega
      conv_lhs => rw [this]
      rw [List.range_add, List.range_add]
      simp [List.range_succ, Nat.add_assoc]
    · intro j hj
      rw [List.mem_range] at hj
      cases hb : (match secs[j]? with | some s => namesMatch name s.2 | none => false) with
      | false => simp
      | true =>
        have := hothers j hb
        simp at this
        omega
  · refine ⟨((List.range (secs.length - i - 1)).map (i + 1 + ·)).reverse, (List.range i).reverse, ?_, ?_⟩
    · simp only [if_true]
      have : secs.length = i + (1 + (secs.length - i - 1)) := by omega
      conv_lhs => rw [this]
      rw [List.range_add, List.range_add]
      simp [List.range_succ, Nat.add_assoc]
    · intro j hj
      simp only [List.mem_reverse, List.mem_map, List.mem_range] at hj
      obtain ⟨a, _, rfl⟩ := hj
      cases hb : (match secs[i + 1 + a]? with | some s => namesMatch name s.2 | none => false) with
      | false => simp
      | true =>
        have := hothers _ hb
        simp at this
        omega

theorem find_nothing {dwp : Bool} {name : List Nat} (hno : ∀ s ∈ secs, ¬ Named name s.2) :
    (if dwp then (List.range secs.length).reverse else List.range secs.length).find?
      (fun i => match secs[i]? with | some s => namesMatch name s.2 | none => false) = none := by
  rw [List.find?_eq_none]
  intro i _ hi
  cases hs : secs[i]? with
  | none => rw [hs] at hi; cases hi
  | some t =>
    rw [hs] at hi
    exact hno t (List.mem_of_getElem? hs) ((namesMatch_iff _ _).1 hi)

theorem order_lt {dwp : Bool} : ∀ i ∈ (if dwp then (List.range secs.length).reverse else List.range secs.length), i < secs.length := by
  intro i hi
  cases dwp <;> simpa using hi

/-- **C66, sections by name.** In every ELF file, a section asked for by name is given as its bytes in the file: the first
section with that name (the last one if the path ends in `.dwp`); there is none exactly if no section has the name. -/
theorem section_by_name (h : IsElf bs w eh secs segs k names) (path : List Nat) (ho : Opens path) (dwp : Bool)
    (hd : dwp = true ↔ ∃ x, path = x ++ str ".dwp") (name : List Nat) :
    (∀ i s c, Chosen dwp secs name i s → Contents bs s c → sectionByName path (some bs) name = some (some c)) ∧
    ((∀ s ∈ secs, ¬ Named name s.2) → sectionByName path (some bs) name = some none) := by
  have hdwp : hasSuffix path (str ".dwp") = dwp := by
    rw [Bool.eq_iff_iff, hasSuffix_iff, hd]
  obtain ⟨first, h1, h2, _, h3⟩ := h.reader_ok path
  rw [hdwp] at h1
  have hf := find_good (dwp := dwp) h h2 h3 name _ (order_lt (dwp := dwp))
  have he : sectionByName path (some bs) name =
      (Reader.good bs w dwp eh secs segs first).contentsByName name := by
    unfold sectionByName
    rw [openFile_ok ho]
    simp only
    rw [h1]
    rfl
  rw [he]
  unfold Reader.contentsByName
  rw [order_eq h2, hf]
  refine ⟨?_, ?_⟩
  · intro i s c hc hcc
    rw [find_chosen hc, Option.bind_some]
    obtain ⟨⟨n, hi, _⟩, _⟩ := hc
    simp only
    rw [h.section_ok h2 h3 hi hcc]
    rfl
  · intro hno
    rw [find_nothing hno]
    rfl

/-- **C66, section headers by name.** -/
theorem section_info_by_name (h : IsElf bs w eh secs segs k names) (path : List Nat) (ho : Opens path) (dwp : Bool)
    (hd : dwp = true ↔ ∃ x, path = x ++ str ".dwp") (name : List Nat) :
    (∀ i s c, Chosen dwp secs name i s → Contents bs s c → sectionInfoByName path (some bs) name = some (some s)) ∧
    ((∀ s ∈ secs, ¬ Named name s.2) → sectionInfoByName path (some bs) name = some none) := by
  have hdwp : hasSuffix path (str ".dwp") = dwp := by
    rw [Bool.eq_iff_iff, hasSuffix_iff, hd]
  obtain ⟨first, h1, h2, _, h3⟩ := h.reader_ok path
  rw [hdwp] at h1
  have hf := find_good (dwp := dwp) h h2 h3 name _ (order_lt (dwp := dwp))
  have he : sectionInfoByName path (some bs) name =
      (Reader.good bs w dwp eh secs segs first).infoByName name := by
    unfold sectionInfoByName
    rw [openFile_ok ho]
    simp only
    rw [h1]
    rfl
  rw [he]
  unfold Reader.infoByName
  rw [order_eq h2, hf]
  refine ⟨?_, ?_⟩
  · intro i s c hc hcc
    rw [find_chosen hc, Option.bind_some]
    obtain ⟨⟨n, hi, _⟩, _⟩ := hc
    simp only
    rw [h.section_ok h2 h3 hi hcc, Option.bind_some, shdr_good, hi]
    rfl
  · intro hno
    rw [find_nothing hno]
    rfl

theorem phdrs_good {dwp : Bool} {first : Shdr} (hm : numPhs eh first = segs.length) :
    (Reader.good bs w dwp eh secs segs first).phdrs = some segs := by
  unfold Reader.phdrs
  show (if numPhs eh first = 0 then _ else some segs) = _
  rw [hm]
  split
  · rename_i hz
    rw [List.eq_nil_of_length_eq_zero hz]
  · rfl

/-- **C66, segments.** The segments are those of the program header table, in its order. -/
theorem segments_read (h : IsElf bs w eh secs segs k names) (path : List Nat) (ho : Opens path) :
    segmentInfo path (some bs) = some segs := by
  obtain ⟨first, h1, _, h2, _⟩ := h.reader_ok path
  unfold segmentInfo
  rw [openFile_ok ho]
  simp only
  rw [h1]
  exact phdrs_good h2

/-- **C66, the address of the first load segment**: 0 in a relocatable file and without such a segment. -/
theorem first_load_vaddr (h : IsElf bs w eh secs segs k names) (path : List Nat) (ho : Opens path) :
    (eh.type = 1 → vaddrOfFirstLoad path (some bs) = some 0) ∧
    (eh.type ≠ 1 → ∀ pre p post, segs = pre ++ p :: post → p.type = 1 → (∀ q ∈ pre, q.type ≠ 1) →
      vaddrOfFirstLoad path (some bs) = some p.vaddr) ∧
    ((∀ p ∈ segs, p.type ≠ 1) → vaddrOfFirstLoad path (some bs) = some 0) := by
  obtain ⟨first, h1, _, h2, _⟩ := h.reader_ok path
  have he : vaddrOfFirstLoad path (some bs) =
      (Reader.good bs w (hasSuffix path (str ".dwp")) eh secs segs first).vaddr := by
    unfold vaddrOfFirstLoad
    rw [openFile_ok ho]
    simp only
    rw [h1]
    rfl
  rw [he]
  unfold Reader.vaddr
  rw [phdrs_good h2]
  show (eh.type = 1 → (if eh.type = 1 then _ else _) = _) ∧ (eh.type ≠ 1 → _) ∧ _
  refine ⟨fun ht => by rw [if_pos ht], ?_, ?_⟩
  · rintro ht pre p post rfl hp hq
    show (if eh.type = 1 then _ else _) = _
    rw [if_neg ht, Option.map_some]
    have : (pre ++ p :: post).find? (fun p => p.type == 1) = some p := by
      rw [List.find?_eq_some_iff_append]
      exact ⟨by simp [hp], pre, post, rfl, fun q hm => by simp [hq q hm]⟩
    rw [this]
  · intro hq
    show (if eh.type = 1 then _ else _) = _
    split
    · rfl
    · have : segs.find? (fun p => p.type == 1) = none := by
        rw [List.find?_eq_none]
        intro p hp
        simp [hq p hp]
      rw [Option.map_some, this]

/-- **C66, kind of file.** -/
theorem dso (h : IsElf bs w eh secs segs k names) (path : List Nat) (ho : Opens path) :
    ∃ b, isDso path (some bs) = some b ∧ (b = true ↔ eh.type = 3) := by
  obtain ⟨first, h1, _⟩ := h.reader_ok path
  refine ⟨eh.type == 3, ?_, by simp⟩
  unfold isDso
  rw [openFile_ok ho]
  simp only
  rw [h1]
  rfl

/-! ## Files that are no ELF files -/

/-- **C66, other files.** A file that does not start with an ELF identification for a little-endian machine has no sections and
no segments, and nothing fails; so has a file that does not exist, is deleted or is a part of the kernel. -/
theorem not_elf (path : List Nat) (disk : Option (List Nat))
    (h : ¬ Opens path ∨ disk = none ∨ ∃ bs, disk = some bs ∧
      (bs.length < 16 ∨ ∀ c, c = 1 ∨ c = 2 → ¬ At bs 0 [0x7f, 0x45, 0x4c, 0x46, c, 1])) (name : List Nat) :
    sectionByName path disk name = some none ∧ segmentInfo path disk = some [] ∧ vaddrOfFirstLoad path disk = some 0 := by
  have hnone : openFile path disk = none ∨ ∃ bs, openFile path disk = some bs ∧ reader path bs = some none := by
    by_cases ho : Opens path
    · rw [openFile_ok ho]
      rcases h with h | rfl | ⟨bs, rfl, h⟩
      · exact absurd ho h
      · exact .inl rfl
      · refine .inr ⟨bs, rfl, ?_⟩
        have ha : ∀ c, c = 1 ∨ c = 2 → isArch c bs = false := by
          intro c hc
          rw [Bool.eq_false_iff]
          intro harch
          unfold isArch at harch
          simp only [Bool.and_eq_true, decide_eq_true_eq, beq_iff_eq] at harch
          obtain ⟨⟨⟨h1, h2⟩, h3⟩, h4⟩ := harch
          rcases h with h | h
          · omega
          · refine h c hc ⟨[], bs.drop 6, ?_, rfl⟩
            match bs, h1, h2, h3, h4 with
            | a :: b :: c' :: d :: e :: f :: r, _, h2, h3, h4 =>
              simp at h2 h3 h4
              obtain ⟨rfl, rfl, rfl, rfl⟩ := h2
              subst h3 h4
              rfl
        unfold reader width
        rw [ha 1 (.inl rfl), ha 2 (.inr rfl)]
        rfl
    · left
      unfold openFile
      unfold Opens at ho
      by_cases h1 : hasSuffix path (str " (deleted)") = true
      · rw [if_pos h1]
      · rw [if_neg h1]
        rw [hasSuffix_iff] at h1
        by_cases h2 : path = str "[vdso]"
        · rw [if_pos h2]
        · rw [if_neg h2]
          by_cases h3 : path = str "[vsyscall]"
          · rw [if_pos h3]
          · exact absurd ⟨h1, h2, h3⟩ ho
  unfold sectionByName segmentInfo vaddrOfFirstLoad
  rcases hnone with h | ⟨bs, h, h'⟩
  · rw [h]
    exact ⟨rfl, rfl, rfl⟩
  · rw [h]
    simp only
    rw [h']
    exact ⟨rfl, rfl, rfl⟩

end Verif.Elf
