import Verif.DumpGcovProps

/-! # C99: what dump_gcov prints, theorems -/
namespace Verif.Dump
open Verif Verif.SymbolMap

/-! ### The names by count -/

theorem countNames_spec (l : List (Name × Sym)) (c : OMap Nat (OMap Name Unit)) (hc : OMap.Sorted c)
    (hi : ∀ k ns, OMap.find? c k = some ns → OMap.Sorted ns) :
    OMap.Sorted (l.foldl (fun c x => if x.2.data.total > 0 then
      OMap.upsert (18446744073709551615 - x.2.data.total) (fun o => OMap.set x.1 () (o.getD [])) c else c) c) ∧
    (∀ k ns, OMap.find? (l.foldl (fun c x => if x.2.data.total > 0 then
      OMap.upsert (18446744073709551615 - x.2.data.total) (fun o => OMap.set x.1 () (o.getD [])) c else c) c) k = some ns → OMap.Sorted ns) ∧
    ∀ k n, (∃ ns, OMap.find? (l.foldl (fun c x => if x.2.data.total > 0 then
      OMap.upsert (18446744073709551615 - x.2.data.total) (fun o => OMap.set x.1 () (o.getD [])) c else c) c) k = some ns ∧
        OMap.find? ns n = some ()) ↔
      (∃ ns, OMap.find? c k = some ns ∧ OMap.find? ns n = some ()) ∨
      ∃ s, (n, s) ∈ l ∧ 0 < s.data.total ∧ k = 18446744073709551615 - s.data.total := by
  induction l generalizing c with
  | nil => exact ⟨hc, hi, fun k n => by simp⟩
  | cons x t ih =>
    simp only [List.foldl_cons]
    by_cases hx : x.2.data.total > 0
    · simp only [if_pos hx]
      generalize hkey : 18446744073709551615 - x.2.data.total = key
      have hs' := OMap.Sorted.upsert hc key (fun o => OMap.set x.1 () (o.getD []))
      have hget : ∀ o, OMap.find? c key = o → OMap.Sorted (o.getD []) := by
        intro o ho
        cases o with
        | none => exact OMap.sorted_nil
        | some ns => exact hi _ _ ho
      obtain ⟨a1, a2, a3⟩ := ih (OMap.upsert key (fun o => OMap.set x.1 () (o.getD [])) c) hs' (by
        intro k ns h
        rw [OMap.find?_upsert hc] at h
        split_ifs at h
        · cases h
          exact OMap.Sorted.upsert (hget _ rfl) _ _
        · exact hi k ns h)
      refine ⟨a1, a2, fun k n => ?_⟩
      rw [a3 k n, OMap.find?_upsert hc]
      by_cases hk : k = key
      · subst hk
        simp only [if_true, Option.some.injEq, exists_eq_left']
        unfold OMap.set
        rw [OMap.find?_upsert (hget _ rfl)]
        have hold : (∃ ns, OMap.find? c k = some ns ∧ OMap.find? ns n = some ()) ↔ OMap.find? ((OMap.find? c k).getD []) n = some () := by
          cases OMap.find? c k with
          | none => simp [OMap.find?]
          | some ns => simp
        rw [hold]
        constructor
        · rintro (h | ⟨s, h1, h2, h3⟩)
          · split_ifs at h with hn
            · subst hn
              exact Or.inr ⟨x.2, List.mem_cons_self, hx, hkey.symm⟩
            · exact Or.inl h
          · exact Or.inr ⟨s, List.mem_cons_of_mem _ h1, h2, h3⟩
        · rintro (h | ⟨s, h1, h2, h3⟩)
          · left
            split_ifs
            · rfl
            · exact h
          · rcases List.mem_cons.1 h1 with h1 | h1
            · left
              rw [if_pos (by rw [← h1])]
            · exact Or.inr ⟨s, h1, h2, h3⟩
      · rw [if_neg hk]
        refine or_congr Iff.rfl ?_
        constructor
        · rintro ⟨s, h1, h2⟩
          exact ⟨s, List.mem_cons_of_mem _ h1, h2⟩
        · rintro ⟨s, h1, h2, h3⟩
          rcases List.mem_cons.1 h1 with h1 | h1
          · exact absurd (by rw [h3, ← hkey, ← h1]) hk
          · exact ⟨s, h1, h2, h3⟩
    · simp only [if_neg hx]
      obtain ⟨a1, a2, a3⟩ := ih c hc hi
      refine ⟨a1, a2, fun k n => ?_⟩
      rw [a3 k n]
      refine or_congr Iff.rfl ?_
      constructor
      · rintro ⟨s, h1, h2⟩
        exact ⟨s, List.mem_cons_of_mem _ h1, h2⟩
      · rintro ⟨s, h1, h2, h3⟩
        rcases List.mem_cons.1 h1 with h1 | h1
        · exact absurd (by rw [← h1]; exact h2) hx
        · exact ⟨s, h1, h2, h3⟩

/-- The functions in the order of the listing. -/
def order (m : OMap Name Sym) : List (Nat × Name) := (countNames m).flatMap fun c => c.2.map fun n => (c.1, n.1)

theorem mem_order {m : OMap Name Sym} (hm : OMap.Sorted m) (k : Nat) (n : Name) : (k, n) ∈ order m ↔
    ∃ s, OMap.find? m n = some s ∧ 0 < s.data.total ∧ k = 18446744073709551615 - s.data.total := by
  obtain ⟨h1, h2, h3⟩ := countNames_spec m [] OMap.sorted_nil (by intro k ns h; cases h)
  have e : (∃ ns, OMap.find? (countNames m) k = some ns ∧ OMap.find? ns n = some ()) ↔
      (∃ ns, OMap.find? ([] : OMap Nat (OMap Name Unit)) k = some ns ∧ OMap.find? ns n = some ()) ∨
        ∃ s, (n, s) ∈ m ∧ 0 < s.data.total ∧ k = 18446744073709551615 - s.data.total := h3 k n
  have e2 : (∃ s, OMap.find? m n = some s ∧ 0 < s.data.total ∧ k = 18446744073709551615 - s.data.total) ↔
      ∃ s, (n, s) ∈ m ∧ 0 < s.data.total ∧ k = 18446744073709551615 - s.data.total := by
    constructor
    · rintro ⟨s, a, b⟩; exact ⟨s, (OMap.find?_eq_some_iff hm).1 a, b⟩
    · rintro ⟨s, a, b⟩; exact ⟨s, (OMap.find?_eq_some_iff hm).2 a, b⟩
  rw [e2]
  constructor
  · intro h
    obtain ⟨c, hc, h⟩ := List.mem_flatMap.1 h
    obtain ⟨x, hx, he⟩ := List.mem_map.1 h
    cases he
    have hf := OMap.find?_some_of_mem h1 (show (c.1, c.2) ∈ countNames m from hc)
    rcases e.1 ⟨c.2, hf, OMap.find?_some_of_mem (h2 _ _ hf) (show (x.1, ()) ∈ c.2 from hx)⟩ with ⟨_, h, _⟩ | h
    · cases h
    · exact h
  · intro h
    obtain ⟨ns, g1, g2⟩ := e.2 (Or.inr h)
    exact List.mem_flatMap.2 ⟨(k, ns), OMap.mem_of_find?_some g1, List.mem_map.2 ⟨(n, ()), OMap.mem_of_find?_some g2, rfl⟩⟩

theorem order_sorted (m : OMap Name Sym) : (order m).Pairwise fun a b => a.1 < b.1 ∨ a.1 = b.1 ∧ a.2 < b.2 := by
  obtain ⟨h1, h2, h3⟩ := countNames_spec m [] OMap.sorted_nil (by intro k ns h; cases h)
  apply pairwise_flat
  · intro c hc
    rw [List.pairwise_map]
    exact List.Pairwise.imp (fun h => Or.inr ⟨rfl, h⟩) (h2 c.1 c.2 (OMap.find?_some_of_mem h1 hc))
  · refine List.Pairwise.imp ?_ h1
    intro a b hab x hx y hy
    obtain ⟨_, _, rfl⟩ := List.mem_map.1 hx
    obtain ⟨_, _, rfl⟩ := List.mem_map.1 hy
    exact Or.inl hab

theorem dump_order (file : Name → Name) (ts : OMap Name Nat) (m : OMap Name Sym) : dump file ts m = (order m).flatMap fun x =>
    match OMap.find? m x.2 with
    | none => []
    | some s => dumpTop file ((OMap.find? ts x.2).getD 0) x.2 s := by
  unfold dump order
  rw [List.flatMap_assoc]
  congr 1
  funext c
  rw [List.flatMap_map]
  rfl

/-- What the lines of a function say. -/
def topFacts (file : Name → Name) (ts : OMap Name Nat) (m : OMap Name Sym) (x : Nat × Name) : List Fact :=
  match OMap.find? m x.2 with
  | none => []
  | some s => .fn x.2 (file x.2) s.data.total s.data.head ((OMap.find? ts x.2).getD 0) :: bodyFacts file x.2 [] s

/-! ### Hypotheses -/

/-- Everything in the profile can be printed: names and file names without newlines, spaces and colons, lines of at most 16 bits,
counts of 64 bits. -/
structure Fits (file : Name → Name) (m : OMap Name Sym) : Prop where
  sorted : OMap.Sorted m
  wf : ∀ p ∈ m, p.2.WF
  names : ∀ p ∈ m, Clean p.1 ∧ Clean (file p.1)
  printable : ∀ p ∈ m, Printable file p.2
  totals : ∀ p ∈ m, p.2.data.total < 18446744073709551616

theorem node_sorted {s : Sym} (h : s.WF) {path : List Callsite} {d : Data} (hd : s.node? path = some d) :
    OMap.Sorted d.pos ∧ ∀ p ∈ d.pos, OMap.Sorted p.2.targets := by
  induction path generalizing s with
  | nil =>
    cases s with
    | mk d' cs =>
      simp only [Sym.node?, Option.some.injEq] at hd
      subst hd
      simp only [Sym.WF] at h
      exact ⟨h.1, h.2.1⟩
  | cons k p ih =>
    simp only [Sym.node?] at hd
    cases hk : lookup s.calls k with
    | none => simp [hk] at hd
    | some c => simp only [hk] at hd; exact ih (h.child hk) hd

theorem facts_lists {file : Name → Name} {m : OMap Name Sym} (h : Fits file m) (ts : OMap Name Nat) :
    Lists file ts m ((order m).flatMap (topFacts file ts m)) := by
  have hmem : ∀ n s, OMap.find? m n = some s → (n, s) ∈ m := fun n s h => OMap.mem_of_find?_some h
  have key : ∀ x, x ∈ (order m).flatMap (topFacts file ts m) ↔ ∃ n s, OMap.find? m n = some s ∧ 0 < s.data.total ∧
      x ∈ (.fn n (file n) s.data.total s.data.head ((OMap.find? ts n).getD 0) :: bodyFacts file n [] s) := by
    intro x
    rw [List.mem_flatMap]
    constructor
    · rintro ⟨⟨k, n⟩, h1, h2⟩
      obtain ⟨s, g1, g2, _⟩ := (mem_order h.sorted k n).1 h1
      simp only [topFacts, g1] at h2
      exact ⟨n, s, g1, g2, h2⟩
    · rintro ⟨n, s, g1, g2, h2⟩
      exact ⟨(_, n), (mem_order h.sorted _ n).2 ⟨s, g1, g2, rfl⟩, by simpa only [topFacts, g1] using h2⟩
  constructor
  · intro n f t hd s
    rw [key]
    constructor
    · rintro ⟨n', y, g1, g2, hm⟩
      rcases List.mem_cons.1 hm with hm | hm
      · simp only [Fact.fn.injEq] at hm
        obtain ⟨rfl, rfl, rfl, rfl, rfl⟩ := hm
        exact ⟨y, g1, g2, rfl, rfl, rfl, rfl⟩
      · exact absurd hm (fns_not_mem _ _ _ _ _ _ _)
    · rintro ⟨y, g1, g2, rfl, rfl, rfl, rfl⟩
      exact ⟨n, y, g1, g2, List.mem_cons_self⟩
  · intro n path f t
    rw [key]
    constructor
    · rintro ⟨n', y, g1, g2, hm⟩
      rcases List.mem_cons.1 hm with hm | hm
      · cases hm
      · obtain ⟨rfl, rel, k, d, e1, e2, e3, e4, e5⟩ := (insts_mem y (h.wf _ (hmem _ _ g1)) _ _ _ _ _).1 hm
        rw [List.nil_append] at e1
        subst e1
        exact ⟨y, k, d, g1, g2, e2, e3, e4, e5⟩
    · rintro ⟨y, k, d, g1, g2, e2, e3, e4, e5⟩
      exact ⟨n, y, g1, g2, List.mem_cons_of_mem _ ((insts_mem y (h.wf _ (hmem _ _ g1)) _ _ _ _ _).2 ⟨rfl, path, k, d, rfl, e2, e3, e4, e5⟩)⟩
  · intro n path off c tg
    rw [key]
    constructor
    · rintro ⟨n', y, g1, g2, hm⟩
      rcases List.mem_cons.1 hm with hm | hm
      · cases hm
      · obtain ⟨rfl, rel, d, p, e1, e2, e3, e4, e5⟩ := (counts_mem y (h.wf _ (hmem _ _ g1)) _ _ _ _ _ _).1 hm
        rw [List.nil_append] at e1
        subst e1
        have hw := node_sorted (h.wf _ (hmem _ _ g1)) e2
        exact ⟨y, d, p, g1, g2, e2, OMap.find?_some_of_mem hw.1 e3, e4, (isTargets_iff (hw.2 _ e3) _).2 e5⟩
    · rintro ⟨y, d, p, g1, g2, e2, e3, e4, e5⟩
      have hw := node_sorted (h.wf _ (hmem _ _ g1)) e2
      have e3' := OMap.mem_of_find?_some e3
      exact ⟨n, y, g1, g2, List.mem_cons_of_mem _ ((counts_mem y (h.wf _ (hmem _ _ g1)) _ _ _ _ _ _).2
        ⟨rfl, path, d, p, rfl, e2, e3', e4, (isTargets_iff (hw.2 _ e3') _).1 e5⟩)⟩
  · apply pairwise_flat
    · intro x hx
      obtain ⟨s, g1, g2, _⟩ := (mem_order h.sorted x.1 x.2).1 hx
      simp only [topFacts, g1]
      rw [List.pairwise_cons]
      refine ⟨?_, body_order s (h.wf _ (hmem _ _ g1)) []⟩
      intro y hy
      cases y with
      | fn => exact absurd hy (fns_not_mem _ _ _ _ _ _ _)
      | count => trivial
      | inst => trivial
    · refine List.Pairwise.imp_of_mem ?_ (order_sorted m)
      intro a b ha hb hab x hx y hy
      obtain ⟨s, g1, g2, g3⟩ := (mem_order h.sorted a.1 a.2).1 ha
      obtain ⟨s', g1', g2', g3'⟩ := (mem_order h.sorted b.1 b.2).1 hb
      have hne : a.2 ≠ b.2 := by
        intro e
        rw [e, g1'] at g1
        cases g1
        rcases hab with hab | hab
        · omega
        · exact absurd (e ▸ hab.2) (lt_irrefl _)
      have ht := h.totals _ (hmem _ _ g1)
      have ht' := h.totals _ (hmem _ _ g1')
      simp only at ht ht'
      simp only [topFacts, g1] at hx
      simp only [topFacts, g1'] at hy
      have hux : ∀ z ∈ bodyFacts file a.2 [] s, Under a.2 [] z := body_under s []
      have huy : ∀ z ∈ bodyFacts file b.2 [] s', Under b.2 [] z := body_under s' []
      rcases List.mem_cons.1 hx with rfl | hx <;> rcases List.mem_cons.1 hy with rfl | hy
      · rcases hab with hab | hab
        · exact Or.inl (by omega)
        · exact Or.inr ⟨by omega, hab.2⟩
      · cases y with
        | fn => exact absurd hy (fns_not_mem _ _ _ _ _ _ _)
        | count => trivial
        | inst => trivial
      · have := hux x hx
        cases x with
        | fn => exact this.elim
        | count => rw [Before, this.1]; exact hne
        | inst => rw [Before, this.1]; exact hne
      · have h1 := hux x hx
        have h2 := huy y hy
        cases x with
        | fn => exact h1.elim
        | count =>
          cases y with
          | fn => exact h2.elim
          | count => rw [Before, h1.1, h2.1]; intro e; exact absurd e hne
          | inst => rw [Before, h1.1, h2.1]; intro e; exact absurd e hne
        | inst =>
          cases y with
          | fn => exact h2.elim
          | count => rw [Before, h1.1, h2.1]; intro e; exact absurd e hne
          | inst => rw [Before, h1.1, h2.1]; intro e; exact absurd e hne

theorem fnLine_clean {file : Name → Name} {name : Name} (hn : Clean name) (hf : Clean (file name)) (stamp : Nat) (s : Sym) :
    (10 : UInt8) ∉ fnLine file stamp name s := by
  unfold fnLine
  simp only [List.mem_append, List.mem_cons, not_or]
  exact ⟨⟨⟨⟨⟨⟨⟨hn.1, by decide, hf.1⟩, by decide⟩, notin_dec (by decide) _⟩, by decide⟩, notin_dec (by decide) _⟩, by decide⟩,
    notin_dec (by decide) _⟩

theorem dump_reads {file : Name → Name} {m : OMap Name Sym} (h : Fits file m) (ts : OMap Name Nat) :
    readDump (dump file ts m) = some ((order m).flatMap (topFacts file ts m)) := by
  have one : ∀ x : Nat × Name, ∃ ls, LinesOf (match OMap.find? m x.2 with
      | none => []
      | some s => dumpTop file ((OMap.find? ts x.2).getD 0) x.2 s) ls ∧
      ∀ st rest, ∃ st', readLines st (ls ++ rest) = (readLines st' rest).map (topFacts file ts m x ++ ·) := by
    intro x
    unfold topFacts
    cases hf : OMap.find? m x.2 with
    | none => exact ⟨[], ⟨rfl, by simp⟩, fun st rest => ⟨st, by simp⟩⟩
    | some s =>
      have hm := OMap.mem_of_find?_some hf
      obtain ⟨ls, l1, l2⟩ := body_reads (file := file) x.2 s x.2 (h.names _ hm).2 (h.printable _ hm) []
      refine ⟨fnLine file ((OMap.find? ts x.2).getD 0) x.2 s :: ls, ?_, ?_⟩
      · have := (LinesOf.one (fnLine_clean (h.names _ hm).1 (h.names _ hm).2 ((OMap.find? ts x.2).getD 0) s)).append l1
        exact this
      · intro st rest
        obtain ⟨s', e1, e2⟩ := l2 [] rfl rest
        refine ⟨(x.2, s'), ?_⟩
        rw [List.cons_append, readLines, readLine_fn (h.names _ hm).1 (h.names _ hm).2, Option.bind_some]
        simp only
        rw [e2, Option.map_map]
        rfl
  have all : ∀ l : List (Nat × Name), ∃ ls, LinesOf (l.flatMap fun x => match OMap.find? m x.2 with
      | none => []
      | some s => dumpTop file ((OMap.find? ts x.2).getD 0) x.2 s) ls ∧
      ∀ st rest, ∃ st', readLines st (ls ++ rest) = (readLines st' rest).map (l.flatMap (topFacts file ts m) ++ ·) := by
    intro l
    induction l with
    | nil => exact ⟨[], ⟨rfl, by simp⟩, fun st rest => ⟨st, by simp⟩⟩
    | cons x t ih =>
      obtain ⟨a, a1, a2⟩ := one x
      obtain ⟨b, b1, b2⟩ := ih
      refine ⟨a ++ b, ?_, ?_⟩
      · rw [List.flatMap_cons]
        exact a1.append b1
      · intro st rest
        obtain ⟨s1, e1⟩ := a2 st (b ++ rest)
        obtain ⟨s2, e2⟩ := b2 s1 rest
        refine ⟨s2, ?_⟩
        rw [List.append_assoc, e1, e2, Option.map_map, List.flatMap_cons]
        congr 1
        funext y
        simp
  obtain ⟨ls, l1, l2⟩ := all (order m)
  rw [dump_order, l1.1, readDump_lines l1.2]
  obtain ⟨st', e⟩ := l2 ([], []) []
  rw [List.append_nil] at e
  rw [e]
  simp [readLines]

/-- **C99**: the listing can be read line by line, and it says exactly what is in the profile. -/
theorem listing {file : Name → Name} {m : OMap Name Sym} (h : Fits file m) (ts : OMap Name Nat) :
    ∃ fs, readDump (dump file ts m) = some fs ∧ Lists file ts m fs :=
  ⟨_, dump_reads h ts, facts_lists h ts⟩

/-! ### Equal listings -/

/-- What the listing shows of a function or of an inlined call. -/
def shown (d : Data) : Nat × List (Nat × Nat × OMap Name Nat) := (d.total, d.pos.map fun p => (p.1, p.2.count, p.2.targets))

/-- Two functions are the same but for the numbers of instructions and the entry counts of inlined calls. -/
structure SameSym (file file' : Name → Name) (y y' : Sym) : Prop where
  nodes : ∀ path, (y.node? path).map shown = (y'.node? path).map shown
  files : ∀ path k, (y.node? (path ++ [k])).isSome = true → file k.2 = file' k.2

/-- Two profiles are the same but for functions without samples, numbers of instructions and entry counts of inlined calls. -/
structure SameProfile (file file' : Name → Name) (ts ts' : OMap Name Nat) (m m' : OMap Name Sym) : Prop where
  left : ∀ n y, OMap.find? m n = some y → 0 < y.data.total → ∃ y', OMap.find? m' n = some y' ∧ file n = file' n ∧
    y.data.head = y'.data.head ∧ (OMap.find? ts n).getD 0 = (OMap.find? ts' n).getD 0 ∧ SameSym file file' y y'
  right : ∀ n y', OMap.find? m' n = some y' → 0 < y'.data.total → ∃ y, OMap.find? m n = some y ∧ 0 < y.data.total

theorem eq_of_mem {A : Type} {R : A → A → Prop} (hi : ∀ a b, R a b → R b a → False) (hr : ∀ a, ¬ R a a) {l l' : List A}
    (h : l.Pairwise R) (h' : l'.Pairwise R) (hm : ∀ a, a ∈ l ↔ a ∈ l') : l = l' := by
  have nd : ∀ {l : List A}, l.Pairwise R → l.Nodup := by
    intro l h
    refine List.Pairwise.imp ?_ h
    rintro a b hab rfl
    exact hr a hab
  exact List.Perm.eq_of_pairwise (fun a b _ _ h1 h2 => (hi a b h1 h2).elim) h h' ((List.perm_ext_iff_of_nodup (nd h) (nd h')).2 hm)

theorem siteLt_asymm {a b : Callsite} (h : siteLt a b) (h' : siteLt b a) : False := by
  rcases h with h | h <;> rcases h' with h' | h'
  · omega
  · omega
  · omega
  · exact lt_irrefl _ (lt_trans h.2 h'.2)

theorem posTexts (file : Name) (i : Nat) {a b : PosMap} (h : a.map (fun p => (p.1, p.2.count, p.2.targets)) =
    b.map fun p => (p.1, p.2.count, p.2.targets)) : a.flatMap (posText file i) = b.flatMap (posText file i) := by
  have key : ∀ l : PosMap, l.flatMap (posText file i) = (l.map fun p => (p.1, p.2.count, p.2.targets)).flatMap fun x =>
      posText file i (x.1, ⟨x.2.1, 0, x.2.2⟩) := by
    intro l
    rw [List.flatMap_map]
    rfl
  rw [key a, key b, h]

theorem body_same {file file' : Name → Name} : ∀ (s : Sym), s.WF → ∀ s' : Sym, s'.WF → SameSym file file' s s' → ∀ (i : Nat) (n : Name),
    file n = file' n → dumpBody file i n s = dumpBody file' i n s' := by
  refine sym_ind ?_
  intro d cs ih hwf s' hwf' hs i n hn
  obtain ⟨d', cs'⟩ := s'
  have hwf0 := hwf
  have hwf0' := hwf'
  rw [Sym.WF] at hwf hwf'
  have h0 := hs.nodes []
  simp only [Sym.node?, Sym.data, Option.map_some, Option.some.injEq, shown, Prod.mk.injEq] at h0
  rw [dumpBody, dumpBody, hn, posTexts _ _ h0.2]
  congr 2
  have hd : ∀ s : Sym, s.node? [] = some s.data := fun s => by cases s; rfl
  have child : ∀ k c, (k, c) ∈ cs → ∀ c', (k, c') ∈ cs' → SameSym file file' c c' := by
    intro k c hc c' hc'
    have l1 := (mem_lookup hwf.2.2.1 k c).2 hc
    have l2 := (mem_lookup hwf'.2.2.1 k c').2 hc'
    constructor
    · intro path
      have := hs.nodes (k :: path)
      simpa only [Sym.node?, Sym.calls, l1, l2] using this
    · intro path k2 h
      refine hs.files (k :: path) k2 ?_
      simpa only [List.cons_append, Sym.node?, Sym.calls, l1] using h
  have toR : ∀ k c, (k, c) ∈ cs → ∃ c', (k, c') ∈ cs' := by
    intro k c hc
    have := hs.nodes [k]
    rw [(node_cons hwf.2.2.1 k [] c.data).2 ⟨c, hc, hd c⟩, Option.map_some] at this
    obtain ⟨x, hx, _⟩ := Option.map_eq_some_iff.1 this.symm
    obtain ⟨c', h1, _⟩ := (node_cons hwf'.2.2.1 k [] x).1 hx
    exact ⟨c', h1⟩
  have toL : ∀ k c', (k, c') ∈ cs' → ∃ c, (k, c) ∈ cs := by
    intro k c hc
    have := hs.nodes [k]
    rw [(node_cons hwf'.2.2.1 k [] c.data).2 ⟨c, hc, hd c⟩, Option.map_some] at this
    obtain ⟨x, hx, _⟩ := Option.map_eq_some_iff.1 this
    obtain ⟨c', h1, _⟩ := (node_cons hwf.2.2.1 k [] x).1 hx
    exact ⟨c', h1⟩
  have text : ∀ k c, (k, c) ∈ cs → ∀ c', (k, c') ∈ cs' →
      callLine file (i + 2) k c.data.total ++ [10] ++ dumpBody file (i + 2) k.2 c =
        callLine file' (i + 2) k c'.data.total ++ [10] ++ dumpBody file' (i + 2) k.2 c' := by
    intro k c hc c' hc'
    have hf : file k.2 = file' k.2 := hs.files [] k (by
      rw [List.nil_append, (node_cons hwf.2.2.1 k [] c.data).2 ⟨c, hc, hd c⟩]; rfl)
    have hcc := child k c hc c' hc'
    have ht := hcc.nodes []
    rw [hd, hd] at ht
    simp only [Option.map_some, Option.some.injEq, shown, Prod.mk.injEq] at ht
    rw [ih (k, c) hc ((WFCalls_iff cs).1 hwf.2.2.2 _ hc) c' ((WFCalls_iff cs').1 hwf'.2.2.2 _ hc') hcc _ _ hf, callLine, callLine, hf, ht.1]
  have nd : ∀ (file : Name → Name) (cs : List (Callsite × Sym)), (cs.map Prod.fst).Nodup →
      ((dumpCalls file (i + 2) cs).map Prod.fst).Nodup := by
    intro file cs h
    rw [dumpCalls_eq, List.map_map]
    exact h
  refine eq_of_mem (R := fun a b : Callsite × List UInt8 => siteLt a.1 b.1) (fun a b => siteLt_asymm) (fun a h => siteLt_ne h rfl)
    (calls_sorted (nd _ _ hwf.2.2.1)) (calls_sorted (nd _ _ hwf'.2.2.1)) ?_
  intro x
  rw [mem_isort, mem_isort, dumpCalls_eq, dumpCalls_eq, List.mem_map, List.mem_map]
  constructor
  · rintro ⟨⟨k, c⟩, hc, rfl⟩
    obtain ⟨c', hc'⟩ := toR k c hc
    exact ⟨(k, c'), hc', by rw [text k c hc c' hc']⟩
  · rintro ⟨⟨k, c'⟩, hc', rfl⟩
    obtain ⟨c, hc⟩ := toL k c' hc'
    exact ⟨(k, c), hc, by rw [text k c hc c' hc']⟩

/-- **C99**: the listing depends on nothing but the profile (in particular not on the order of the inlined calls in their hash
table), and it shows all of it: two profiles have the same listing exactly if they are the same. -/
theorem listing_eq_iff {file file' : Name → Name} {m m' : OMap Name Sym} (h : Fits file m) (h' : Fits file' m')
    (ts ts' : OMap Name Nat) : dump file ts m = dump file' ts' m' ↔ SameProfile file file' ts ts' m m' := by
  have hd : ∀ s : Sym, s.node? [] = some s.data := fun s => by cases s; rfl
  constructor
  · intro he
    obtain ⟨fs, h1, L⟩ := listing h ts
    obtain ⟨fs', h2, L'⟩ := listing h' ts'
    rw [he, h2] at h1
    cases h1
    have pos : ∀ {file1 file2 : Name → Name} {m1 m2 : OMap Name Sym} {ts1 ts2 : OMap Name Nat}, Fits file1 m1 → Fits file2 m2 →
        Lists file1 ts1 m1 fs → Lists file2 ts2 m2 fs → ∀ {n : Name} {y y' : Sym}, OMap.find? m1 n = some y →
        OMap.find? m2 n = some y' → 0 < y.data.total → 0 < y'.data.total → ∀ {path : List Callsite} {d d' : Data},
        y.node? path = some d → y'.node? path = some d' → ∀ (off c : Nat) (tg : OMap Name Nat),
        (off, c, tg) ∈ d.pos.map (fun p => (p.1, p.2.count, p.2.targets)) →
        (off, c, tg) ∈ d'.pos.map (fun p => (p.1, p.2.count, p.2.targets)) := by
      intro file1 file2 m1 m2 ts1 ts2 F1 F2 L1 L2 n y y' hy hy' ht ht' path d d' hp hp' off c tg hm
      obtain ⟨p, hp1, hp2⟩ := List.mem_map.1 hm
      cases hp2
      have w := node_sorted (F1.wf _ (OMap.mem_of_find?_some hy)) hp
      have w' := node_sorted (F2.wf _ (OMap.mem_of_find?_some hy')) hp'
      have := (L1.counts n path p.1 p.2.count (isort targetLe p.2.targets)).2 ⟨y, d, p.2, hy, ht, hp,
        OMap.find?_some_of_mem w.1 hp1, rfl, (isTargets_iff (w.2 _ hp1) _).2 rfl⟩
      obtain ⟨y2, d2, q, e1, e2, e3, e4, e5, e6⟩ := (L2.counts _ _ _ _ _).1 this
      rw [hy'] at e1
      cases e1
      rw [hp'] at e3
      cases e3
      have e4' := OMap.mem_of_find?_some e4
      refine List.mem_map.2 ⟨(p.1, q), e4', ?_⟩
      rw [e5]
      have ht : q.targets = p.2.targets := by
        have hp := ((isTargets_iff (w.2 _ hp1) _).2 rfl).1.symm.trans e6.1
        exact (List.Perm.eq_of_pairwise (fun a b _ _ (h1 : a.1 < b.1) h2 => absurd (lt_trans h1 h2) (lt_irrefl _)) (w.2 _ hp1) (w'.2 _ e4') hp).symm
      rw [ht]
    have same : ∀ {n : Name} {y y' : Sym}, OMap.find? m n = some y → OMap.find? m' n = some y' → 0 < y.data.total → 0 < y'.data.total →
        ∀ {path : List Callsite} {d d' : Data}, y.node? path = some d → y'.node? path = some d' →
        d.pos.map (fun p => (p.1, p.2.count, p.2.targets)) = d'.pos.map fun p => (p.1, p.2.count, p.2.targets) := by
      intro n y y' hy hy' ht ht' path d d' hp hp'
      have w := node_sorted (h.wf _ (OMap.mem_of_find?_some hy)) hp
      have w' := node_sorted (h'.wf _ (OMap.mem_of_find?_some hy')) hp'
      refine eq_of_mem (R := fun a b : Nat × Nat × OMap Name Nat => a.1 < b.1) (fun a b h1 h2 => by omega) (fun a => lt_irrefl _)
        (List.pairwise_map.2 w.1) (List.pairwise_map.2 w'.1) ?_
      rintro ⟨off, c, tg⟩
      exact ⟨pos h h' L L' hy hy' ht ht' hp hp' off c tg, pos h' h L' L hy' hy ht' ht hp' hp off c tg⟩
    constructor
    · intro n y hy ht
      obtain ⟨y', e1, e2, e3, e4, e5, e6⟩ := (L'.fns _ _ _ _ _).1 ((L.fns n (file n) y.data.total y.data.head ((OMap.find? ts n).getD 0)).2
        ⟨y, hy, ht, rfl, rfl, rfl, rfl⟩)
      have inst : ∀ path k d, path.getLast? = some k → y.node? path = some d → ∃ d', y'.node? path = some d' ∧ file k.2 = file' k.2 ∧
          d.total = d'.total := by
        intro path k d hk hp
        obtain ⟨y2, k2, d2, g1, g2, g3, g4, g5, g6⟩ := (L'.insts _ _ _ _).1 ((L.insts n path (file k.2) d.total).2 ⟨y, k, d, hy, ht, hk, hp, rfl, rfl⟩)
        rw [e1] at g1
        cases g1
        rw [hk] at g3
        cases g3
        exact ⟨d2, g4, g5, g6⟩
      have inst' : ∀ path k d', path.getLast? = some k → y'.node? path = some d' → ∃ d, y.node? path = some d := by
        intro path k d hk hp
        obtain ⟨y2, k2, d2, g1, g2, g3, g4, g5, g6⟩ := (L.insts _ _ _ _).1 ((L'.insts n path (file' k.2) d.total).2 ⟨y', k, d, e1, e2, hk, hp, rfl, rfl⟩)
        rw [hy] at g1
        cases g1
        exact ⟨d2, g4⟩
      refine ⟨y', e1, e3, e5, e6, ?_, ?_⟩
      · intro path
        rcases List.eq_nil_or_concat path with rfl | ⟨q, k, rfl⟩
        · rw [hd, hd]
          simp only [Option.map_some, Option.some.injEq, shown, Prod.mk.injEq]
          exact ⟨e4, same hy e1 ht e2 (hd y) (hd y')⟩
        · cases hp : y.node? (q.concat k) with
          | none =>
            cases hp' : y'.node? (q.concat k) with
            | none => rfl
            | some d' =>
              obtain ⟨d, g⟩ := inst' _ k d' (by simp) hp'
              rw [hp] at g
              cases g
          | some d =>
            obtain ⟨d', g1, _, g3⟩ := inst _ k d (by simp) hp
            rw [g1]
            simp only [Option.map_some, Option.some.injEq, shown, Prod.mk.injEq]
            exact ⟨g3, same hy e1 ht e2 hp g1⟩
      · intro path k hk
        obtain ⟨d, hp⟩ := Option.isSome_iff_exists.1 hk
        exact (inst _ k d (by simp) hp).choose_spec.2.1
    · intro n y' hy' ht'
      obtain ⟨y, e1, e2, _⟩ := (L.fns _ _ _ _ _).1 ((L'.fns n (file' n) y'.data.total y'.data.head ((OMap.find? ts' n).getD 0)).2
        ⟨y', hy', ht', rfl, rfl, rfl, rfl⟩)
      exact ⟨y, e1, e2⟩
  · intro hs
    have total : ∀ {y y' : Sym}, SameSym file file' y y' → y.data.total = y'.data.total := by
      intro y y' hyy
      have := hyy.nodes []
      rw [hd, hd] at this
      simp only [Option.map_some, Option.some.injEq, shown, Prod.mk.injEq] at this
      exact this.1
    have horder : order m = order m' := by
      refine eq_of_mem (R := fun a b : Nat × Name => a.1 < b.1 ∨ a.1 = b.1 ∧ a.2 < b.2) ?_ ?_ (order_sorted m) (order_sorted m') ?_
      · rintro a b (g | g) (g' | g')
        · omega
        · omega
        · omega
        · exact lt_irrefl _ (lt_trans g.2 g'.2)
      · rintro a (g | g)
        · exact lt_irrefl _ g
        · exact lt_irrefl _ g.2
      · rintro ⟨k, n⟩
        rw [mem_order h.sorted, mem_order h'.sorted]
        constructor
        · rintro ⟨y, e1, e2, e3⟩
          obtain ⟨y', g1, _, _, _, g5⟩ := hs.left n y e1 e2
          have := total g5
          exact ⟨y', g1, by omega, by rw [e3, this]⟩
        · rintro ⟨y', e1, e2, e3⟩
          obtain ⟨y, f1, f2⟩ := hs.right n y' e1 e2
          obtain ⟨y2, g1, _, _, _, g5⟩ := hs.left n y f1 f2
          rw [e1] at g1
          cases g1
          have := total g5
          exact ⟨y, f1, f2, by rw [e3, this]⟩
    rw [dump_order, dump_order, ← horder]
    have key : ∀ l : List (Nat × Name), (∀ x ∈ l, x ∈ order m) → (l.flatMap fun x => match OMap.find? m x.2 with
        | none => []
        | some s => dumpTop file ((OMap.find? ts x.2).getD 0) x.2 s) = l.flatMap fun x => match OMap.find? m' x.2 with
        | none => []
        | some s => dumpTop file' ((OMap.find? ts' x.2).getD 0) x.2 s := by
      intro l
      induction l with
      | nil => intro _; rfl
      | cons x t ih =>
        intro hx
        rw [List.flatMap_cons, List.flatMap_cons, ih fun y hy => hx y (List.mem_cons_of_mem _ hy)]
        congr 1
        obtain ⟨y, e1, e2, _⟩ := (mem_order h.sorted x.1 x.2).1 (hx x List.mem_cons_self)
        obtain ⟨y', g1, g2, g3, g4, g5⟩ := hs.left x.2 y e1 e2
        rw [e1, g1]
        simp only
        rw [dumpTop, dumpTop, g2, g3, g4, total g5, body_same y (h.wf _ (OMap.mem_of_find?_some e1)) y'
          (h'.wf _ (OMap.mem_of_find?_some g1)) g5 0 x.2 g2]
    exact key _ fun x hx => hx

end Verif.Dump
