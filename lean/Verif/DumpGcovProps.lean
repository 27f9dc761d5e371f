import Verif.DumpGcov

/-! # C99: proofs -/
namespace Verif.Dump
open Verif Verif.SymbolMap

/-! ### Numbers and words -/

theorem dec_digits (n : Nat) : ∀ c ∈ dec n, 48 ≤ c.toNat ∧ c.toNat ≤ 57 := by
  unfold dec
  induction n using Nat.strongRecOn with
  | ind n ih =>
    have dig : ∀ d, d < 10 → 48 ≤ (UInt8.ofNat (Sample.digitChar d).toNat).toNat ∧ (UInt8.ofNat (Sample.digitChar d).toNat).toNat ≤ 57 := by
      intro d hd
      interval_cases d <;> decide
    intro c hc
    rw [Sample.printNum] at hc
    split at hc
    · rename_i h
      simp only [List.map_cons, List.map_nil, List.mem_singleton] at hc
      subst hc
      exact dig n (by omega)
    · rename_i h
      rw [List.map_append, List.mem_append] at hc
      rcases hc with hc | hc
      · exact ih (n / 10) (Nat.div_lt_self (by omega) (by omega)) c hc
      · simp only [List.map_cons, List.map_nil, List.mem_singleton] at hc
        subst hc
        exact dig _ (Nat.mod_lt _ (by omega))

theorem dec_ne_nil (n : Nat) : dec n ≠ [] := by
  obtain ⟨d, t, _, h, _⟩ := Sample.printNum_head 10 (Or.inl rfl) n
  simp [dec, h]

theorem dec_value (n : Nat) : (dec n).foldl (fun a c => 10 * a + (c.toNat - 48)) 0 = n := by
  unfold dec
  induction n using Nat.strongRecOn with
  | ind n ih =>
    have dig : ∀ d, d < 10 → (UInt8.ofNat (Sample.digitChar d).toNat).toNat - 48 = d := by
      intro d hd
      interval_cases d <;> decide
    rw [Sample.printNum]
    split
    · rename_i h
      simp only [List.map_cons, List.map_nil, List.foldl_cons, List.foldl_nil]
      rw [dig n (by omega)]; omega
    · rename_i h
      rw [List.map_append, List.foldl_append, ih (n / 10) (Nat.div_lt_self (by omega) (by omega))]
      simp only [List.map_cons, List.map_nil, List.foldl_cons, List.foldl_nil]
      rw [dig _ (Nat.mod_lt _ (by omega))]; omega

theorem num_dec (n : Nat) : num (dec n) = some n := by
  have h : (dec n).all (fun c => decide (48 ≤ c.toNat ∧ c.toNat ≤ 57)) = true := by
    rw [List.all_eq_true]
    intro c hc
    simpa using dec_digits n c hc
  unfold num
  rw [if_pos ⟨dec_ne_nil n, h⟩, dec_value]

theorem notin_dec {c : UInt8} (hc : c.toNat < 48 ∨ 57 < c.toNat) (n : Nat) : c ∉ dec n := by
  intro h
  have := dec_digits n c h
  omega

theorem cut_self {c : UInt8} {s : List UInt8} (h : c ∉ s) : cut c s = [s] := by
  induction s with
  | nil => rfl
  | cons a t ih =>
    rw [List.mem_cons, not_or] at h
    rw [cut, if_neg (fun e => h.1 e.symm), ih h.2]

theorem cut_append {c : UInt8} {s t : List UInt8} (h : c ∉ s) : cut c (s ++ c :: t) = s :: cut c t := by
  induction s with
  | nil => simp [cut]
  | cons a r ih =>
    rw [List.mem_cons, not_or] at h
    rw [List.cons_append, cut, if_neg (fun e => h.1 e.symm), ih h.2]

theorem cut_lines {ls : List (List UInt8)} (h : ∀ l ∈ ls, (10 : UInt8) ∉ l) : cut 10 (ls.flatMap (· ++ [10])) = ls ++ [[]] := by
  induction ls with
  | nil => rfl
  | cons a t ih =>
    rw [List.flatMap_cons, List.append_assoc, List.singleton_append, cut_append (h a List.mem_cons_self),
      ih fun l hl => h l (List.mem_cons_of_mem _ hl)]
    rfl

theorem readDump_lines {ls : List (List UInt8)} (h : ∀ l ∈ ls, (10 : UInt8) ∉ l) :
    readDump (ls.flatMap (· ++ [10])) = readLines ([], []) ls := by
  unfold readDump
  rw [cut_lines h, if_pos (by simp), List.dropLast_concat]

/-! ### Locations and targets -/

/-- The text of a location without indentation and the final space. -/
def locWord (off : Nat) : List UInt8 :=
  dec (off / 4294967296 % 65536) ++ (if off % 4294967296 ≠ 0 then 46 :: dec (off % 4294967296) else []) ++ [58]

theorem locText_eq (i off : Nat) : locText i off = List.replicate i 32 ++ (locWord off ++ [32]) := by
  simp [locText, locWord]

theorem readLoc_locWord {off : Nat} (h : off < 281474976710656) : readLoc (locWord off) = some off := by
  unfold readLoc locWord
  have e1 : off / 4294967296 % 65536 = off / 4294967296 := Nat.mod_eq_of_lt (by omega)
  rw [e1]
  split_ifs with hd
  · rw [cut_append (by
      rw [List.mem_append, List.mem_cons]
      rintro (h | h | h)
      · exact notin_dec (by decide) _ h
      · exact absurd h (by decide)
      · exact notin_dec (by decide) _ h)]
    simp only [cut]
    rw [cut_append (notin_dec (by decide) _), cut_self (notin_dec (by decide) _)]
    simp only [num_dec, Option.bind_some, Option.map_some]
    congr 1; omega
  · rw [List.append_nil, cut_append (notin_dec (by decide) _)]
    simp only [cut]
    rw [cut_self (notin_dec (by decide) _)]
    simp only [num_dec, Option.map_some]
    congr 1; omega

theorem locWord_clean (off : Nat) : (10 : UInt8) ∉ locWord off ∧ (32 : UInt8) ∉ locWord off ∧ locWord off ≠ [] := by
  refine ⟨?_, ?_, by simp [locWord]⟩ <;>
  · unfold locWord
    rw [List.mem_append, List.mem_append]
    rintro ((h | h) | h)
    · exact notin_dec (by decide) _ h
    · split_ifs at h
      · rcases List.mem_cons.1 h with h | h
        · exact absurd h (by decide)
        · exact notin_dec (by decide) _ h
      · cases h
    · exact absurd h (by decide)

/-- The word of a call target. -/
def targetWord (file : Name) (t : Name × Nat) : List UInt8 := t.1 ++ 58 :: (file ++ 58 :: dec t.2)

theorem targetWord_clean {file : Name} (hf : Clean file) {t : Name × Nat} (ht : Clean t.1) :
    (10 : UInt8) ∉ targetWord file t ∧ (32 : UInt8) ∉ targetWord file t ∧ targetWord file t ≠ [] := by
  refine ⟨?_, ?_, by simp [targetWord]⟩
  · unfold targetWord
    simp only [List.mem_append, List.mem_cons, not_or]
    exact ⟨ht.1, by decide, hf.1, by decide, notin_dec (by decide) _⟩
  · unfold targetWord
    simp only [List.mem_append, List.mem_cons, not_or]
    exact ⟨ht.2.1, by decide, hf.2.1, by decide, notin_dec (by decide) _⟩

theorem readTarget_word {file : Name} (hf : Clean file) {t : Name × Nat} (ht : Clean t.1) :
    readTarget (targetWord file t) = some t := by
  unfold readTarget targetWord
  rw [cut_append ht.2.2, cut_append hf.2.2, cut_self (notin_dec (by decide) _)]
  simp [num_dec]

theorem mapM_targets {file : Name} (hf : Clean file) : ∀ {l : List (Name × Nat)}, (∀ t ∈ l, Clean t.1) →
    (l.map (targetWord file)).mapM readTarget = some l
  | [], _ => rfl
  | t :: l, h => by
    rw [List.map_cons, List.mapM_cons, readTarget_word hf (h t List.mem_cons_self), mapM_targets hf fun x hx => h x (List.mem_cons_of_mem _ hx)]
    rfl

/-- Cutting the targets of a location into words. -/
theorem cut_targets {file : Name} (hf : Clean file) (w : List UInt8) (hw : (32 : UInt8) ∉ w) :
    ∀ {l : List (Name × Nat)}, (∀ t ∈ l, Clean t.1) →
    ∃ r, cut 32 (w ++ l.flatMap (targetText file)) = w :: r ∧ (r.filter fun x => !x.isEmpty) = l.map (targetWord file) := by
  intro l
  induction l generalizing w with
  | nil => intro _; exact ⟨[], by simp [cut_self hw], rfl⟩
  | cons t l ih =>
    intro h
    have ht := h t List.mem_cons_self
    obtain ⟨r, h1, h2⟩ := ih (targetWord file t) (targetWord_clean hf ht).2.1 fun x hx => h x (List.mem_cons_of_mem _ hx)
    refine ⟨[] :: targetWord file t :: r, ?_, ?_⟩
    · have e : w ++ (t :: l).flatMap (targetText file) = w ++ 32 :: ([] ++ 32 :: (targetWord file t ++ l.flatMap (targetText file))) := by
        simp [targetText, targetWord]
      rw [e, cut_append hw, cut_append (by simp), h1]
    · have hne := (targetWord_clean hf ht).2.2
      rw [List.filter_cons_of_neg (by simp), List.filter_cons_of_pos (by simpa using hne), h2]
      rfl

/-! ### Lines -/

/-- The line of a location. -/
def posLine (file : Name) (indent : Nat) (p : Nat × PInfo) : List UInt8 :=
  locText indent p.1 ++ dec p.2.count ++ (isort targetLe p.2.targets).flatMap (targetText file)

/-- The line of an inlined call. -/
def callLine (file : Name → Name) (indent : Nat) (k : Callsite) (total : Nat) : List UInt8 :=
  locText indent k.1 ++ (k.2 ++ 58 :: file k.2 ++ asc " total:" ++ dec total)

/-- The line of a function. -/
def fnLine (file : Name → Name) (stamp : Nat) (name : Name) (s : Sym) : List UInt8 :=
  name ++ 58 :: file name ++ asc " total:" ++ dec s.data.total ++ asc " head:" ++ dec s.data.head ++
    asc " timestamp: " ++ dec stamp

theorem cut_indent (i : Nat) (w : List UInt8) : cut 32 (List.replicate i 32 ++ w) = List.replicate i [] ++ cut 32 w := by
  induction i with
  | zero => rfl
  | succ i ih => simp [List.replicate_succ, cut, ih]

theorem words_of {i : Nat} {w : List UInt8} {ws : List (List UInt8)} {x : List UInt8} (hx : x ≠ []) (h : cut 32 w = x :: ws)
    (st : Name × List Callsite) : readLine st (List.replicate i 32 ++ w) = readWords st (i / 2) (x :: ws) := by
  unfold readLine
  rw [cut_indent, h]
  have hx' : x.isEmpty = false := by simpa using hx
  have e1 : (List.replicate i ([] : List UInt8) ++ x :: ws).takeWhile (·.isEmpty) = List.replicate i [] := by
    rw [List.takeWhile_append_of_pos (by intro a ha; rw [(List.mem_replicate.1 ha).2]; rfl)]
    simp [hx']
  have e2 : (List.replicate i ([] : List UInt8) ++ x :: ws).dropWhile (·.isEmpty) = x :: ws := by
    rw [List.dropWhile_append_of_pos (by intro a ha; rw [(List.mem_replicate.1 ha).2]; rfl)]
    simp [hx']
  rw [e1, e2, List.length_replicate]

theorem targets_clean {l : List (Name × Nat)} (h : ∀ t ∈ l, Clean t.1) : ∀ t ∈ isort targetLe l, Clean t.1 := fun t ht =>
  h t (mem_isort.1 ht)

theorem readLine_pos {file : Name} (hf : Clean file) {p : Nat × PInfo} (ho : p.1 < 281474976710656) (ht : ∀ t ∈ p.2.targets, Clean t.1)
    (st : Name × List Callsite) (depth : Nat) : readLine st (posLine file (2 * depth + 2) p) =
      some (st, .count st.1 (st.2.take depth) p.1 p.2.count (isort targetLe p.2.targets)) := by
  obtain ⟨r, h1, h2⟩ := cut_targets hf (dec p.2.count) (notin_dec (by decide) _) (targets_clean ht)
  have e : posLine file (2 * depth + 2) p = List.replicate (2 * depth + 2) 32 ++ (locWord p.1 ++ 32 :: (dec p.2.count ++
      (isort targetLe p.2.targets).flatMap (targetText file))) := by
    rw [posLine, locText_eq]; simp
  rw [e, words_of (locWord_clean p.1).2.2 (by rw [cut_append (locWord_clean p.1).2.1, h1])]
  have e2 : (2 * depth + 2) / 2 = depth + 1 := by omega
  rw [e2]
  simp only [readWords]
  rw [cut_self (notin_dec (by decide) _)]
  simp only [readLoc_locWord ho, num_dec, h2, mapM_targets hf (targets_clean ht), Option.bind_some, Option.map_some]

theorem labelled_dec {label : List UInt8} (h : (58 : UInt8) ∉ label) (n : Nat) : labelled label (label ++ 58 :: dec n) = some n := by
  unfold labelled
  rw [cut_append h, cut_self (notin_dec (by decide) _)]
  simp [num_dec]

theorem readLine_call {file : Name → Name} {k : Callsite} (ho : k.1 < 281474976710656) (hn : Clean k.2) (hf : Clean (file k.2))
    (total : Nat) (st : Name × List Callsite) (depth : Nat) : readLine st (callLine file (2 * depth + 2) k total) =
      some ((st.1, st.2.take depth ++ [k]), .inst st.1 (st.2.take depth ++ [k]) (file k.2) total) := by
  have e : callLine file (2 * depth + 2) k total = List.replicate (2 * depth + 2) 32 ++ (locWord k.1 ++ 32 ::
      ((k.2 ++ 58 :: file k.2) ++ 32 :: (asc "total" ++ 58 :: dec total))) := by
    rw [callLine, locText_eq]; simp [asc]
  rw [e, words_of (locWord_clean k.1).2.2 (by
    rw [cut_append (locWord_clean k.1).2.1, cut_append (by
      simp only [List.mem_append, List.mem_cons, not_or]
      exact ⟨hn.2.1, by decide, hf.2.1⟩), cut_self (by
      simp only [List.mem_append, List.mem_cons, not_or]
      exact ⟨by decide, by decide, notin_dec (by decide) _⟩)])]
  have e2 : (2 * depth + 2) / 2 = depth + 1 := by omega
  rw [e2]
  simp only [readWords]
  rw [cut_append hn.2.2, cut_self hf.2.2]
  simp only [readLoc_locWord ho, labelled_dec (show (58 : UInt8) ∉ asc "total" by decide), Option.bind_some, Option.map_some]

theorem readLine_fn {file : Name → Name} {name : Name} (hn : Clean name) (hf : Clean (file name)) (stamp : Nat) (s : Sym)
    (st : Name × List Callsite) : readLine st (fnLine file stamp name s) =
      some ((name, []), .fn name (file name) s.data.total s.data.head stamp) := by
  have e : fnLine file stamp name s = List.replicate 0 32 ++ ((name ++ 58 :: file name) ++ 32 :: ((asc "total" ++ 58 :: dec s.data.total) ++
      32 :: ((asc "head" ++ 58 :: dec s.data.head) ++ 32 :: (asc "timestamp:" ++ 32 :: dec stamp)))) := by
    simp [fnLine, asc]
  rw [e, words_of (x := name ++ 58 :: file name) (by simp) (by
    rw [cut_append (by
      simp only [List.mem_append, List.mem_cons, not_or]
      exact ⟨hn.2.1, by decide, hf.2.1⟩), cut_append (by
      simp only [List.mem_append, List.mem_cons, not_or]
      exact ⟨by decide, by decide, notin_dec (by decide) _⟩), cut_append (by
      simp only [List.mem_append, List.mem_cons, not_or]
      exact ⟨by decide, by decide, notin_dec (by decide) _⟩), cut_append (by decide), cut_self (notin_dec (by decide) _)])]
  simp only [Nat.zero_div, readWords]
  rw [cut_append hn.2.2, cut_self hf.2.2]
  simp only [labelled_dec (show (58 : UInt8) ∉ asc "total" by decide), labelled_dec (show (58 : UInt8) ∉ asc "head" by decide),
    Option.bind_some, num_dec, if_true, Option.map_some]

/-! ### The listing as lines and as facts -/

theorem isort_map {A B : Type} (g : Callsite × A → B) (l : List (Callsite × A)) :
    isort callLe (l.map fun p => (p.1, g p)) = (isort callLe l).map fun p => (p.1, g p) := by
  have ins : ∀ (x : Callsite × A) (l : List (Callsite × A)), insertSorted callLe (x.1, g x) (l.map fun p => (p.1, g p)) =
      (insertSorted callLe x l).map fun p => (p.1, g p) := by
    intro x l
    induction l with
    | nil => rfl
    | cons y t ih =>
      simp only [List.map_cons, insertSorted]
      have e : callLe (x.1, g x) (y.1, g y) = callLe x y := rfl
      rw [e]
      split_ifs
      · rfl
      · rw [List.map_cons, ih]
  induction l with
  | nil => rfl
  | cons x t ih => rw [List.map_cons, isort, ih, ins, isort]

theorem dumpCalls_eq (file : Name → Name) (indent : Nat) (cs : List (Callsite × Sym)) :
    dumpCalls file indent cs = cs.map fun p => (p.1, callLine file indent p.1 p.2.data.total ++ [10] ++ dumpBody file indent p.1.2 p.2) := by
  induction cs with
  | nil => rfl
  | cons a t ih =>
    obtain ⟨k, s⟩ := a
    rw [dumpCalls, ih, List.map_cons]
    simp [callLine]

theorem dumpBody_eq (file : Name → Name) (indent : Nat) (name : Name) (d : Data) (cs : List (Callsite × Sym)) :
    dumpBody file indent name (.mk d cs) = d.pos.flatMap (posText (file name) (indent + 2)) ++ (isort callLe cs).flatMap fun p =>
      callLine file (indent + 2) p.1 p.2.data.total ++ [10] ++ dumpBody file (indent + 2) p.1.2 p.2 := by
  rw [dumpBody, dumpCalls_eq, isort_map, List.flatMap_map]

mutual
/-- What the lines of a symbol after its first say. -/
def bodyFacts (file : Name → Name) (top : Name) (path : List Callsite) : Sym → List Fact
  | .mk d cs => d.pos.map (fun p => .count top path p.1 p.2.count (isort targetLe p.2.targets)) ++
      (isort callLe (callFacts file top path cs)).flatMap Prod.snd
def callFacts (file : Name → Name) (top : Name) (path : List Callsite) : List (Callsite × Sym) → List (Callsite × List Fact)
  | [] => []
  | (k, s) :: t => (k, .inst top (path ++ [k]) (file k.2) s.data.total :: bodyFacts file top (path ++ [k]) s) ::
      callFacts file top path t
end

theorem callFacts_eq (file : Name → Name) (top : Name) (path : List Callsite) (cs : List (Callsite × Sym)) :
    callFacts file top path cs = cs.map fun p =>
      (p.1, .inst top (path ++ [p.1]) (file p.1.2) p.2.data.total :: bodyFacts file top (path ++ [p.1]) p.2) := by
  induction cs with
  | nil => rfl
  | cons a t ih => rw [callFacts, ih, List.map_cons]

theorem bodyFacts_eq (file : Name → Name) (top : Name) (path : List Callsite) (d : Data) (cs : List (Callsite × Sym)) :
    bodyFacts file top path (.mk d cs) = d.pos.map (fun p => .count top path p.1 p.2.count (isort targetLe p.2.targets)) ++
      (isort callLe cs).flatMap fun p => .inst top (path ++ [p.1]) (file p.1.2) p.2.data.total :: bodyFacts file top (path ++ [p.1]) p.2 := by
  rw [bodyFacts, callFacts_eq, isort_map, List.flatMap_map]

theorem printable_mem {file : Name → Name} : ∀ {cs : List (Callsite × Sym)}, PrintableCalls file cs → ∀ p ∈ cs,
    p.1.1 < 281474976710656 ∧ Clean p.1.2 ∧ Clean (file p.1.2) ∧ Printable file p.2
  | [], _, p, hp => by cases hp
  | (k, s) :: t, h, p, hp => by
    rw [PrintableCalls] at h
    rcases List.mem_cons.1 hp with rfl | hp
    · exact h.1
    · exact printable_mem h.2 p hp

/-- The text consists of lines. -/
def LinesOf (text : List UInt8) (ls : List (List UInt8)) : Prop := text = ls.flatMap (· ++ [10]) ∧ ∀ l ∈ ls, (10 : UInt8) ∉ l

theorem LinesOf.append {a b : List UInt8} {la lb : List (List UInt8)} (h : LinesOf a la) (h' : LinesOf b lb) : LinesOf (a ++ b) (la ++ lb) := by
  refine ⟨by rw [h.1, h'.1, List.flatMap_append], ?_⟩
  intro l hl
  rcases List.mem_append.1 hl with hl | hl
  · exact h.2 l hl
  · exact h'.2 l hl

theorem LinesOf.one {l : List UInt8} (h : (10 : UInt8) ∉ l) : LinesOf (l ++ [10]) [l] := ⟨by simp, by simpa using h⟩

/-- Reading lines from any state with the given function and calls yields the facts and such a state again. -/
def Reads (top : Name) (path : List Callsite) (ls : List (List UInt8)) (fs : List Fact) : Prop :=
  ∀ stack, stack.take path.length = path → ∀ rest, ∃ stack', stack'.take path.length = path ∧
    readLines (top, stack) (ls ++ rest) = (readLines (top, stack') rest).map (fs ++ ·)

theorem Reads.append {top : Name} {path : List Callsite} {a b : List (List UInt8)} {fa fb : List Fact} (h : Reads top path a fa)
    (h' : Reads top path b fb) : Reads top path (a ++ b) (fa ++ fb) := by
  intro stack hs rest
  obtain ⟨s1, e1, r1⟩ := h stack hs (b ++ rest)
  obtain ⟨s2, e2, r2⟩ := h' s1 e1 rest
  refine ⟨s2, e2, ?_⟩
  rw [List.append_assoc, r1, r2, Option.map_map]
  congr 1
  funext x
  simp

theorem Reads.nil (top : Name) (path : List Callsite) : Reads top path [] [] := by
  intro stack hs rest
  exact ⟨stack, hs, by simp⟩

theorem reads_flat {A : Type} {top : Name} {path : List Callsite} (text : A → List UInt8) (facts : A → List Fact) :
    ∀ {l : List A}, (∀ x ∈ l, ∃ ls, LinesOf (text x) ls ∧ Reads top path ls (facts x)) →
    ∃ ls, LinesOf (l.flatMap text) ls ∧ Reads top path ls (l.flatMap facts)
  | [], _ => ⟨[], ⟨rfl, by simp⟩, Reads.nil _ _⟩
  | x :: l, h => by
    obtain ⟨a, a1, a2⟩ := h x List.mem_cons_self
    obtain ⟨b, b1, b2⟩ := reads_flat text facts (l := l) fun y hy => h y (List.mem_cons_of_mem _ hy)
    exact ⟨a ++ b, by rw [List.flatMap_cons]; exact a1.append b1, by rw [List.flatMap_cons]; exact a2.append b2⟩

theorem posLine_clean {file : Name} (hf : Clean file) {p : Nat × PInfo} (ht : ∀ t ∈ p.2.targets, Clean t.1) (i : Nat) :
    (10 : UInt8) ∉ posLine file i p := by
  rw [posLine, locText_eq]
  simp only [List.mem_append, List.mem_flatMap, List.mem_replicate, not_or, not_exists, not_and]
  refine ⟨⟨⟨fun _ => by decide, (locWord_clean p.1).1, by decide⟩, notin_dec (by decide) _⟩, ?_⟩
  intro t hm
  have := (targetWord_clean hf (targets_clean ht t hm)).1
  unfold targetWord at this
  unfold targetText
  simp only [List.mem_append, List.mem_cons, not_or] at this ⊢
  simp only [List.not_mem_nil, not_false_eq_true, and_true]
  have h1 : ¬ (10 : UInt8) = 32 := by decide
  tauto

theorem callLine_clean {file : Name → Name} {k : Callsite} (hn : Clean k.2) (hf : Clean (file k.2)) (i total : Nat) :
    (10 : UInt8) ∉ callLine file i k total := by
  rw [callLine, locText_eq]
  simp only [List.mem_append, List.mem_replicate, List.mem_cons, not_or]
  exact ⟨⟨fun h => absurd h.2 (by decide), (locWord_clean k.1).1, by decide⟩, ⟨⟨hn.1, by decide, hf.1⟩, by decide⟩, notin_dec (by decide) _⟩

theorem flatMap_one {A B : Type} (f : A → B) (l : List A) : l.flatMap (fun x => [f x]) = l.map f := by
  induction l with
  | nil => rfl
  | cons a t ih => rw [List.flatMap_cons, ih]; rfl

theorem body_reads {file : Name → Name} (top : Name) : (s : Sym) → (name : Name) → Clean (file name) → Printable file s →
    (path : List Callsite) → ∃ ls, LinesOf (dumpBody file (2 * path.length) name s) ls ∧ Reads top path ls (bodyFacts file top path s)
  | .mk d cs, name, hn, hp, path => by
    rw [Printable] at hp
    rw [dumpBody_eq, bodyFacts_eq]
    have h1 : ∃ ls, LinesOf (d.pos.flatMap (posText (file name) (2 * path.length + 2))) ls ∧
        Reads top path ls (d.pos.map fun p => .count top path p.1 p.2.count (isort targetLe p.2.targets)) := by
      have := reads_flat (top := top) (path := path) (posText (file name) (2 * path.length + 2))
        (fun p => [Fact.count top path p.1 p.2.count (isort targetLe p.2.targets)]) (l := d.pos) (by
        intro p hm
        obtain ⟨h1, h2⟩ := hp.1 p hm
        refine ⟨[posLine (file name) (2 * path.length + 2) p], LinesOf.one (posLine_clean hn h2 _), ?_⟩
        intro stack hs rest
        refine ⟨stack, hs, ?_⟩
        rw [List.singleton_append, readLines, readLine_pos hn h1 h2, Option.bind_some]
        simp only [hs, List.singleton_append])
      rwa [flatMap_one] at this
    have h2 : ∃ ls, LinesOf ((isort callLe cs).flatMap fun p =>
          callLine file (2 * path.length + 2) p.1 p.2.data.total ++ [10] ++ dumpBody file (2 * path.length + 2) p.1.2 p.2) ls ∧
        Reads top path ls ((isort callLe cs).flatMap fun p =>
          .inst top (path ++ [p.1]) (file p.1.2) p.2.data.total :: bodyFacts file top (path ++ [p.1]) p.2) := by
      apply reads_flat
      intro p hm
      have hmem := mem_isort.1 hm
      obtain ⟨g1, g2, g3, g4⟩ := printable_mem hp.2 p hmem
      obtain ⟨ls, l1, l2⟩ := body_reads top p.2 p.1.2 g3 g4 (path ++ [p.1])
      have e : 2 * (path ++ [p.1]).length = 2 * path.length + 2 := by simp; omega
      rw [e] at l1
      refine ⟨callLine file (2 * path.length + 2) p.1 p.2.data.total :: ls, (LinesOf.one (callLine_clean g2 g3 _ _)).append l1, ?_⟩
      intro stack hs rest
      obtain ⟨s', e1, e2⟩ := l2 (path ++ [p.1]) (List.take_length) rest
      refine ⟨s', ?_, ?_⟩
      · have := congrArg (List.take path.length) e1
        rw [List.take_take] at this
        simpa using this
      · rw [List.cons_append, readLines, readLine_call g1 g2 g3, Option.bind_some]
        simp only [hs]
        rw [e2, Option.map_map]
        congr 1
    obtain ⟨a, a1, a2⟩ := h1
    obtain ⟨b, b1, b2⟩ := h2
    exact ⟨a ++ b, a1.append b1, a2.append b2⟩
termination_by s => sizeOf s
decreasing_by
  have := List.sizeOf_lt_of_mem hmem
  simp only [Sym.mk.sizeOf_spec]
  have h3 : sizeOf p = 1 + sizeOf p.1 + sizeOf p.2 := by cases p; rfl
  omega

/-! ### What the facts say -/

theorem sym_ind {P : Sym → Prop} (h : ∀ d cs, (∀ p ∈ cs, P p.2) → P (.mk d cs)) : (s : Sym) → P s
  | .mk d cs => h d cs fun p hp => sym_ind h p.2
termination_by s => sizeOf s
decreasing_by
  have := List.sizeOf_lt_of_mem hp
  simp only [Sym.mk.sizeOf_spec]
  have h3 : sizeOf p = 1 + sizeOf p.1 + sizeOf p.2 := by cases p; rfl
  omega

theorem mem_lookup {cs : List (Callsite × Sym)} (hn : (cs.map Prod.fst).Nodup) (k : Callsite) (c : Sym) :
    lookup cs k = some c ↔ (k, c) ∈ cs := by
  induction cs with
  | nil => simp [lookup]
  | cons a t ih =>
    obtain ⟨k', s⟩ := a
    simp only [List.map_cons, List.nodup_cons] at hn
    rw [lookup, List.mem_cons]
    split_ifs with hk
    · subst hk
      simp only [Option.some.injEq, Prod.mk.injEq, true_and]
      refine ⟨fun h => Or.inl h.symm, ?_⟩
      rintro (h | h)
      · exact h.symm
      · exact absurd (List.mem_map.2 ⟨_, h, rfl⟩) hn.1
    · rw [ih hn.2]
      simp [hk]

theorem node_cons {d : Data} {cs : List (Callsite × Sym)} (hn : (cs.map Prod.fst).Nodup) (k : Callsite) (r : List Callsite) (x : Data) :
    (Sym.mk d cs).node? (k :: r) = some x ↔ ∃ c, (k, c) ∈ cs ∧ c.node? r = some x := by
  simp only [Sym.node?, Sym.calls]
  cases hl : lookup cs k with
  | none =>
    simp only [false_iff, reduceCtorEq]
    rintro ⟨c, hc, _⟩
    rw [(mem_lookup hn k c).2 hc] at hl
    cases hl
  | some c =>
    constructor
    · intro h
      exact ⟨c, (mem_lookup hn k c).1 hl, h⟩
    · rintro ⟨c', hc, h⟩
      rw [(mem_lookup hn k c').2 hc] at hl
      cases hl
      exact h

theorem targetLe_trans (a b c : Name × Nat) (h : targetLe a b = true) (h' : targetLe b c = true) : targetLe a c = true := by
  unfold targetLe at *
  split_ifs at * <;> simp only [decide_eq_true_eq] at * <;> first | omega | exact le_trans h' h

theorem targetLe_total (a b : Name × Nat) : (targetLe a b || targetLe b a) = true := by
  unfold targetLe
  split_ifs <;> simp only [Bool.or_eq_true, decide_eq_true_eq] <;> first | omega | exact le_total _ _

theorem isTargets_iff {m : OMap Name Nat} (hm : OMap.Sorted m) (l : List (Name × Nat)) : IsTargets l m ↔ l = isort targetLe m := by
  have hnd : ((isort targetLe m).map Prod.fst).Nodup := by
    rw [((isort_perm targetLe m).map Prod.fst).nodup_iff]
    exact (List.pairwise_map.2 (List.Pairwise.imp (fun h => ne_of_lt h) hm))
  have hs : (isort targetLe m).Pairwise fun a b => b.2 < a.2 ∨ a.2 = b.2 ∧ b.1 < a.1 := by
    have h1 := pairwise_isort targetLe_trans targetLe_total m
    have h2 := List.pairwise_map.1 hnd
    refine List.Pairwise.imp₂ ?_ h1 h2
    intro a b hab hne
    unfold targetLe at hab
    split_ifs at hab with e
    · exact Or.inl (of_decide_eq_true hab)
    · push Not at e
      exact Or.inr ⟨e.symm, lt_of_le_of_ne (of_decide_eq_true hab) (Ne.symm hne)⟩
  constructor
  · rintro ⟨h1, h2⟩
    refine List.Perm.eq_of_pairwise ?_ h2 hs (h1.trans (isort_perm targetLe m).symm)
    rintro a b _ _ (h | h) (h' | h')
    · omega
    · omega
    · omega
    · exact absurd (lt_trans h.2 h'.2) (lt_irrefl _)
  · rintro rfl
    exact ⟨isort_perm _ _, hs⟩

theorem counts_mem {file : Name → Name} {top : Name} : ∀ (s : Sym), s.WF → ∀ (path0 : List Callsite) (n : Name) (path : List Callsite)
    (off c : Nat) (tg : List (Name × Nat)), .count n path off c tg ∈ bodyFacts file top path0 s ↔ n = top ∧ ∃ rel d p,
      path = path0 ++ rel ∧ s.node? rel = some d ∧ (off, p) ∈ d.pos ∧ c = p.count ∧ tg = isort targetLe p.targets := by
  refine sym_ind ?_
  intro d cs ih hwf path0 n path off c tg
  rw [Sym.WF] at hwf
  rw [bodyFacts_eq, List.mem_append, List.mem_map, List.mem_flatMap]
  constructor
  · rintro (⟨p, hp, he⟩ | ⟨p, hp, hm⟩)
    · simp only [Fact.count.injEq] at he
      obtain ⟨rfl, rfl, rfl, rfl, rfl⟩ := he
      exact ⟨rfl, [], d, p.2, by simp, rfl, hp, rfl, rfl⟩
    · rcases List.mem_cons.1 hm with h | h
      · cases h
      · have hmem := mem_isort.1 hp
        obtain ⟨e0, rel, d', q, e1, e2, e3⟩ := (ih p hmem ((WFCalls_iff cs).1 hwf.2.2.2 p hmem) _ _ _ _ _ _).1 h
        exact ⟨e0, p.1 :: rel, d', q, by rw [e1]; simp, (node_cons hwf.2.2.1 _ _ _).2 ⟨p.2, hmem, e2⟩, e3⟩
  · rintro ⟨rfl, rel, d', q, rfl, e2, e3, rfl, rfl⟩
    cases rel with
    | nil =>
      simp only [Sym.node?, Sym.data, Option.some.injEq] at e2
      subst e2
      exact Or.inl ⟨(off, q), e3, by simp⟩
    | cons k r =>
      obtain ⟨y, hy, h⟩ := (node_cons hwf.2.2.1 _ _ _).1 e2
      refine Or.inr ⟨(k, y), mem_isort.2 hy, List.mem_cons_of_mem _ ?_⟩
      rw [ih (k, y) hy ((WFCalls_iff cs).1 hwf.2.2.2 _ hy)]
      exact ⟨rfl, r, d', q, by simp, h, e3, rfl, rfl⟩

theorem insts_mem {file : Name → Name} {top : Name} : ∀ (s : Sym), s.WF → ∀ (path0 : List Callsite) (n : Name) (path : List Callsite)
    (f : Name) (t : Nat), .inst n path f t ∈ bodyFacts file top path0 s ↔ n = top ∧ ∃ rel k d,
      path = path0 ++ rel ∧ rel.getLast? = some k ∧ s.node? rel = some d ∧ f = file k.2 ∧ t = d.total := by
  refine sym_ind ?_
  intro d cs ih hwf path0 n path f t
  rw [Sym.WF] at hwf
  rw [bodyFacts_eq, List.mem_append, List.mem_map, List.mem_flatMap]
  have hdata : ∀ s : Sym, s.node? [] = some s.data := fun s => by cases s; rfl
  constructor
  · rintro (⟨p, hp, he⟩ | ⟨p, hp, hm⟩)
    · cases he
    · have hmem := mem_isort.1 hp
      rcases List.mem_cons.1 hm with h | h
      · simp only [Fact.inst.injEq] at h
        obtain ⟨rfl, rfl, rfl, rfl⟩ := h
        exact ⟨rfl, [p.1], p.1, p.2.data, rfl, rfl, (node_cons hwf.2.2.1 _ _ _).2 ⟨p.2, hmem, hdata _⟩, rfl, rfl⟩
      · obtain ⟨e0, rel, k, d', e1, e2, e3, e4⟩ := (ih p hmem ((WFCalls_iff cs).1 hwf.2.2.2 p hmem) _ _ _ _ _).1 h
        exact ⟨e0, p.1 :: rel, k, d', by rw [e1]; simp, by rw [List.getLast?_cons]; simp [e2],
          (node_cons hwf.2.2.1 _ _ _).2 ⟨p.2, hmem, e3⟩, e4⟩
  · rintro ⟨rfl, rel, k, d', rfl, e2, e3, rfl, rfl⟩
    cases rel with
    | nil => cases e2
    | cons k' r =>
      obtain ⟨y, hy, h⟩ := (node_cons hwf.2.2.1 _ _ _).1 e3
      refine Or.inr ⟨(k', y), mem_isort.2 hy, ?_⟩
      cases r with
      | nil =>
        simp only [List.getLast?_singleton, Option.some.injEq] at e2
        subst e2
        rw [hdata] at h
        cases h
        exact List.mem_cons_self
      | cons k2 r =>
        refine List.mem_cons_of_mem _ ?_
        rw [ih (k', y) hy ((WFCalls_iff cs).1 hwf.2.2.2 _ hy)]
        exact ⟨rfl, k2 :: r, k, d', by simp, by rwa [List.getLast?_cons_cons] at e2, h, rfl, rfl⟩

theorem fns_not_mem {file : Name → Name} {top : Name} : ∀ (s : Sym) (path0 : List Callsite) (n f : Name) (t h st : Nat),
    .fn n f t h st ∉ bodyFacts file top path0 s := by
  refine sym_ind ?_
  intro d cs ih path0 n f t h st hm
  rw [bodyFacts_eq, List.mem_append, List.mem_map, List.mem_flatMap] at hm
  rcases hm with ⟨p, _, he⟩ | ⟨p, hp, hm⟩
  · cases he
  · rcases List.mem_cons.1 hm with h | h
    · cases h
    · exact ih p (mem_isort.1 hp) _ _ _ _ _ _ h

/-! ### The order of the facts -/

/-- The facts below a symbol: a location in `path` or deeper, or a call deeper than `path`. -/
def Under (top : Name) (path : List Callsite) : Fact → Prop
  | .fn _ _ _ _ _ => False
  | .count n p _ _ _ => n = top ∧ path <+: p
  | .inst n p _ _ => n = top ∧ path <+: p ∧ path.length < p.length

/-- The facts of an inlined call. -/
def Within (top : Name) (path : List Callsite) : Fact → Prop
  | .fn _ _ _ _ _ => False
  | .count n p _ _ _ => n = top ∧ path <+: p
  | .inst n p _ _ => n = top ∧ path <+: p

theorem under_within {top : Name} {path : List Callsite} {x : Fact} (h : Under top path x) : Within top path x := by
  cases x with
  | fn => exact h
  | count => exact h
  | inst => exact ⟨h.1, h.2.1⟩

theorem within_under {top : Name} {path : List Callsite} {k : Callsite} {x : Fact} (h : Within top (path ++ [k]) x) : Under top path x := by
  cases x with
  | fn => exact h
  | count => exact ⟨h.1, (List.prefix_append path [k]).trans h.2⟩
  | inst n p f t =>
    refine ⟨h.1, (List.prefix_append path [k]).trans h.2, ?_⟩
    have := h.2.length_le
    simp only [List.length_append, List.length_singleton] at this
    omega

theorem body_under {file : Name → Name} {top : Name} : ∀ (s : Sym) (path : List Callsite), ∀ x ∈ bodyFacts file top path s,
    Under top path x := by
  refine sym_ind ?_
  intro d cs ih path x hm
  rw [bodyFacts_eq, List.mem_append, List.mem_map, List.mem_flatMap] at hm
  rcases hm with ⟨p, _, rfl⟩ | ⟨p, hp, hm⟩
  · exact ⟨rfl, List.prefix_refl _⟩
  · rcases List.mem_cons.1 hm with rfl | h
    · exact ⟨rfl, List.prefix_append _ _, by simp⟩
    · exact within_under (under_within (ih p (mem_isort.1 hp) _ x h))

theorem callLe_trans {A : Type} (a b c : Callsite × A) (h : callLe a b = true) (h' : callLe b c = true) : callLe a c = true := by
  unfold callLe at *
  split_ifs at * <;> simp only [decide_eq_true_eq] at * <;> first | omega | exact le_trans h h'

theorem callLe_total {A : Type} (a b : Callsite × A) : (callLe a b || callLe b a) = true := by
  unfold callLe
  split_ifs <;> simp only [Bool.or_eq_true, decide_eq_true_eq] <;> first | omega | exact le_total _ _

theorem calls_sorted {A : Type} {cs : List (Callsite × A)} (hn : (cs.map Prod.fst).Nodup) :
    (isort callLe cs).Pairwise fun a b => siteLt a.1 b.1 := by
  have hnd : ((isort callLe cs).map Prod.fst).Nodup := by
    rwa [((isort_perm callLe cs).map Prod.fst).nodup_iff]
  refine List.Pairwise.imp₂ ?_ (pairwise_isort callLe_trans callLe_total cs) (List.pairwise_map.1 hnd)
  intro a b hab hne
  unfold callLe at hab
  split_ifs at hab with e
  · exact Or.inl (of_decide_eq_true hab)
  · push Not at e
    refine Or.inr ⟨e, lt_of_le_of_ne (of_decide_eq_true hab) ?_⟩
    intro h2
    exact hne (Prod.ext e h2)

theorem siteLt_ne {a b : Callsite} (h : siteLt a b) : a ≠ b := by
  rintro rfl
  rcases h with h | h
  · exact lt_irrefl _ h
  · exact lt_irrefl _ h.2

theorem prefix_get {path p : List Callsite} {k : Callsite} (h : path ++ [k] <+: p) : p[path.length]? = some k := by
  obtain ⟨r, rfl⟩ := h
  simp

theorem before_blocks {top : Name} {path : List Callsite} {k k' : Callsite} (hk : siteLt k k') {x y : Fact}
    (hx : Within top (path ++ [k]) x) (hy : Within top (path ++ [k']) y) : Before x y := by
  cases x with
  | fn => exact hx.elim
  | count n p o c tg =>
    have gx := prefix_get hx.2
    cases y with
    | fn => exact hy.elim
    | count n' p' o' c' tg' =>
      have gy := prefix_get hy.2
      intro _ e
      rw [e, gy] at gx
      exact absurd (Option.some.inj gx).symm (siteLt_ne hk)
    | inst n' p' f' t' =>
      have gy := prefix_get hy.2
      intro _ e
      rw [e, gy] at gx
      exact absurd (Option.some.inj gx).symm (siteLt_ne hk)
  | inst n p f t =>
    have gx := prefix_get hx.2
    have lx := hx.2.length_le
    simp only [List.length_append, List.length_singleton] at lx
    cases y with
    | fn => exact hy.elim
    | count n' p' o' c' tg' =>
      have gy := prefix_get hy.2
      have ly := hy.2.length_le
      simp only [List.length_append, List.length_singleton] at ly
      intro _ e
      rw [← e, List.getElem?_dropLast] at gy
      split_ifs at gy
      rw [gx] at gy
      exact absurd (Option.some.inj gy) (siteLt_ne hk)
    | inst n' p' f' t' =>
      have gy := prefix_get hy.2
      have ly := hy.2.length_le
      simp only [List.length_append, List.length_singleton] at ly
      rintro _ q a b rfl rfl
      simp only [List.length_append, List.length_singleton] at lx ly
      rw [List.getElem?_append] at gx gy
      split_ifs at gx gy with h1
      · rw [gx] at gy
        exact absurd (Option.some.inj gy) (siteLt_ne hk)
      · have e : path.length - q.length = 0 := by omega
        rw [e] at gx gy
        simp only [List.getElem?_cons_zero, Option.some.injEq] at gx gy
        rw [gx, gy]
        exact hk

theorem before_head {top : Name} {path : List Callsite} (hp : path ≠ []) {f : Name} {t : Nat} {y : Fact} (hy : Under top path y) :
    Before (.inst top path f t) y := by
  have hl : path.dropLast.length < path.length := by
    have := List.length_pos_iff.2 hp
    rw [List.length_dropLast]
    omega
  cases y with
  | fn => exact hy.elim
  | count n p o c tg =>
    intro _ e
    have := hy.2.length_le
    rw [← e] at this
    omega
  | inst n p f' t' =>
    rintro _ q a b rfl rfl
    have := hy.2.2
    simp at this

theorem pairwise_flat {A B : Type} {R : B → B → Prop} (f : A → List B) : ∀ {l : List A}, (∀ x ∈ l, (f x).Pairwise R) →
    l.Pairwise (fun a b => ∀ x ∈ f a, ∀ y ∈ f b, R x y) → (l.flatMap f).Pairwise R
  | [], _, _ => List.Pairwise.nil
  | a :: l, h, hp => by
    rw [List.pairwise_cons] at hp
    rw [List.flatMap_cons, List.pairwise_append]
    refine ⟨h a List.mem_cons_self, pairwise_flat f (fun x hx => h x (List.mem_cons_of_mem _ hx)) hp.2, ?_⟩
    intro x hx y hy
    obtain ⟨b, hb, hy⟩ := List.mem_flatMap.1 hy
    exact hp.1 b hb x hx y hy

theorem body_order {file : Name → Name} {top : Name} : ∀ (s : Sym), s.WF → ∀ (path : List Callsite),
    (bodyFacts file top path s).Pairwise Before := by
  refine sym_ind ?_
  intro d cs ih hwf path
  rw [Sym.WF] at hwf
  rw [bodyFacts_eq, List.pairwise_append]
  refine ⟨?_, ?_, ?_⟩
  · rw [List.pairwise_map]
    exact List.Pairwise.imp (fun h _ _ => h) hwf.1
  · apply pairwise_flat
    · intro p hp
      have hmem := mem_isort.1 hp
      rw [List.pairwise_cons]
      exact ⟨fun y hy => before_head (by simp) (body_under _ _ y hy), ih p hmem ((WFCalls_iff cs).1 hwf.2.2.2 p hmem) _⟩
    · refine List.Pairwise.imp ?_ (calls_sorted hwf.2.2.1)
      intro a b hab x hx y hy
      have aux : ∀ (p : Callsite × Sym) z, z ∈ (.inst top (path ++ [p.1]) (file p.1.2) p.2.data.total :: bodyFacts file top (path ++ [p.1]) p.2) →
          Within top (path ++ [p.1]) z := by
        intro p z hz
        rcases List.mem_cons.1 hz with rfl | hz
        · exact ⟨rfl, List.prefix_refl _⟩
        · exact under_within (body_under _ _ z hz)
      exact before_blocks hab (aux a x hx) (aux b y hy)
  · intro x hx y hy
    obtain ⟨p, _, rfl⟩ := List.mem_map.1 hx
    obtain ⟨q, _, hy⟩ := List.mem_flatMap.1 hy
    have hw : Within top (path ++ [q.1]) y := by
      rcases List.mem_cons.1 hy with rfl | hz
      · exact ⟨rfl, List.prefix_refl _⟩
      · exact under_within (body_under _ _ y hz)
    cases y with
    | fn => exact hw.elim
    | count n p' o c tg =>
      rintro _ rfl
      have := hw.2.length_le
      simp at this
    | inst n p' f t =>
      rintro _ rfl
      have := hw.2.length_le
      simp at this

end Verif.Dump
