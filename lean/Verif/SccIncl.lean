import Verif.SccTopo

namespace Verif.Scc

/-! ### Specification of the inclusive counts -/

open Classical in
/-- The samples of a function and of the calls out of its group `same`. -/
noncomputable def ownCost (cost : Nat → Nat → Nat → Nat) (S : Nat → Sym) (incl : Nat → Nat) (same : Nat → Prop) (u : Nat) : Nat :=
  (S u).total + (((S u).calls.filter fun c => ¬ same c.1).map fun c => cost (incl c.1) (max 1 (S c.1).head) c.2).sum

open Classical in
/-- Each function has the count of all functions it is mutually recursive with: their samples, plus for each call to another
function its share of that function's inclusive count. -/
def Inclusive (cost : Nat → Nat → Nat → Nat) (S : Nat → Sym) (E : Nat → List Nat) (ns : List Nat) (incl : Nat → Nat) : Prop :=
  ∀ v ∈ ns, incl v = (((ns.filter fun u => Mutual E u v).map (ownCost cost S incl (Mutual E v))).sum) % 2 ^ 32

/-! ### Proof -/

theorem symIncl_eq (cost : Nat → Nat → Nat → Nat) (S : Nat → Sym) (g : List Nat) (incl : Nat → Nat) (s : Nat) :
    symIncl cost S g incl s = ownCost cost S incl (· ∈ g) s := by
  unfold symIncl ownCost
  have : ∀ (l : List (Nat × Nat)) (t : Nat), l.foldl (fun t (c : Nat × Nat) => if c.1 ∈ g then t
      else t + cost (incl c.1) (if (S c.1).head = 0 then 1 else (S c.1).head) c.2) t =
      t + ((l.filter fun c => ¬ c.1 ∈ g).map fun c => cost (incl c.1) (max 1 (S c.1).head) c.2).sum := by
    intro l
    induction l with
    | nil => simp
    | cons c l ih =>
      intro t
      rw [List.foldl_cons, ih]
      by_cases hc : c.1 ∈ g
      · simp [hc]
      · have hh : (if (S c.1).head = 0 then 1 else (S c.1).head) = max 1 (S c.1).head := by split <;> omega
        simp only [hc, not_false_eq_true, decide_true, List.filter_cons_of_pos, if_false, List.map_cons, List.sum_cons, hh]
        omega
  rw [this]
  congr 3
  refine List.filter_congr fun c _ => ?_
  by_cases hc : c.1 ∈ g <;> simp [hc]

theorem ownCost_congr (cost : Nat → Nat → Nat → Nat) (S : Nat → Sym) {i i' : Nat → Nat} {p q : Nat → Prop} {u : Nat} (hpq : ∀ c ∈ (S u).calls, (p c.1 ↔ q c.1))
    (h : ∀ c ∈ (S u).calls, ¬ p c.1 → i c.1 = i' c.1) : ownCost cost S i p u = ownCost cost S i' q u := by
  unfold ownCost
  congr 2
  rw [List.filter_congr fun c hc => by rw [hpq c hc]]
  refine List.map_congr_left fun c hc => ?_
  rw [List.mem_filter] at hc
  rw [h c hc.1 (by rw [hpq c hc.1]; simpa using hc.2)]

theorem groupSum_eq (cost : Nat → Nat → Nat → Nat) (S : Nat → Sym) (g : List Nat) (incl : Nat → Nat) :
    (groupSum cost S g incl).2 = ((g.map (ownCost cost S incl (· ∈ g))).sum) % 2 ^ 32 ∧
    ∀ x, x ∉ g → (groupSum cost S g incl).1 x = incl x := by
  unfold groupSum
  have : ∀ (l : List Nat), (∀ s ∈ l, s ∈ g) → ∀ (a : (Nat → Nat) × Nat), (∀ x, x ∉ g → a.1 x = incl x) →
      (l.foldl (fun a s => (upd a.1 s (symIncl cost S g a.1 s), (a.2 + symIncl cost S g a.1 s) % 2 ^ 32)) a).2 % 2 ^ 32 =
        (a.2 + (l.map (ownCost cost S incl (· ∈ g))).sum) % 2 ^ 32 ∧
      ∀ x, x ∉ g → (l.foldl (fun a s => (upd a.1 s (symIncl cost S g a.1 s), (a.2 + symIncl cost S g a.1 s) % 2 ^ 32)) a).1 x = incl x := by
    intro l
    induction l with
    | nil => intro _ a ha; exact ⟨by simp, ha⟩
    | cons s l ih =>
      intro hl a ha
      rw [List.foldl_cons]
      have hs : symIncl cost S g a.1 s = ownCost cost S incl (· ∈ g) s := by
        rw [symIncl_eq]
        exact ownCost_congr cost S (fun _ _ => Iff.rfl) fun c _ hc => ha c.1 hc
      obtain ⟨h1, h2⟩ := ih (fun x hx => hl x (by simp [hx])) (upd a.1 s (symIncl cost S g a.1 s), (a.2 + symIncl cost S g a.1 s) % 2 ^ 32) (by
        intro x hx
        have : x ≠ s := fun e => hx (e ▸ hl s (by simp))
        simp only [upd, if_neg this]
        exact ha x hx)
      refine ⟨?_, h2⟩
      rw [h1, hs]
      simp only [List.map_cons, List.sum_cons]
      rw [Nat.mod_add_mod, Nat.add_assoc]
  obtain ⟨h1, h2⟩ := this g (fun _ h => h) (incl, 0) fun _ _ => rfl
  refine ⟨?_, h2⟩
  rw [Nat.zero_add] at h1
  rw [← h1, Nat.mod_eq_of_lt]
  cases hg : g.reverse with
  | nil => simp at hg; subst hg; simp
  | cons x t =>
    have : g = t.reverse ++ [x] := by rw [← List.reverse_reverse g, hg]; simp
    rw [show ∀ (f : (Nat → Nat) × Nat → Nat → (Nat → Nat) × Nat) a, g.foldl f a = (t.reverse ++ [x]).foldl f a from fun f a => by rw [← this],
      List.foldl_append]
    exact Nat.mod_lt _ (by decide)

theorem groupIncl_eq (cost : Nat → Nat → Nat → Nat) (S : Nat → Sym) (syms : Nat → List Nat) (incl : Nat → Nat) (n x : Nat) :
    groupIncl cost S syms incl n x = if x ∈ syms n then (((syms n).map (ownCost cost S incl (· ∈ syms n))).sum) % 2 ^ 32 else incl x := by
  unfold groupIncl
  obtain ⟨h1, h2⟩ := groupSum_eq cost S (syms n) incl
  rw [← h1]
  have : ∀ (l : List Nat) (a : Nat → Nat) (v : Nat), l.foldl (fun a s => upd a s v) a x = if x ∈ l then v else a x := by
    intro l
    induction l with
    | nil => intro a v; rfl
    | cons s l ih =>
      intro a v
      rw [List.foldl_cons, ih]
      by_cases hx : x ∈ l
      · simp [hx]
      · by_cases e : x = s
        · subst e; simp [upd]
        · simp [hx, e, upd]
  rw [this]
  by_cases hx : x ∈ syms n
  · simp [hx]
  · simp [hx, h2 x hx]

theorem fold_incl (cost : Nat → Nat → Nat → Nat) (S : Nat → Sym) (syms : Nat → List Nat) : ∀ (sorted : List Nat), sorted.Nodup →
    (∀ r ∈ sorted, ∀ r' ∈ sorted, ∀ x, x ∈ syms r → x ∈ syms r' → r = r') →
    (∀ l r rest, sorted = l ++ r :: rest → ∀ s ∈ syms r, ∀ c ∈ (S s).calls, c.1 ∉ syms r → ∃ r' ∈ l, c.1 ∈ syms r') →
    ∀ r ∈ sorted, ∀ x ∈ syms r, sorted.foldl (groupIncl cost S syms) (fun _ => 0) x =
      (((syms r).map (ownCost cost S (sorted.foldl (groupIncl cost S syms) (fun _ => 0)) (· ∈ syms r))).sum) % 2 ^ 32 := by
  intro sorted
  induction sorted using List.reverseRecOn with
  | nil => intro _ _ _ r hr; cases hr
  | append_singleton l n ih =>
    intro hn hd hc r hr x hx
    have hn' := List.nodup_append.1 hn
    have ih := ih hn'.1 (fun r hr r' hr' => hd r (by simp [hr]) r' (by simp [hr'])) (fun l1 r rest e => hc l1 r (rest ++ [n]) (by rw [e]; simp))
    rw [List.foldl_append, List.foldl_cons, List.foldl_nil]
    generalize l.foldl (groupIncl cost S syms) (fun _ => 0) = a at ih
    have hold : ∀ r ∈ l, ∀ x ∈ syms r, groupIncl cost S syms a n x = a x := by
      intro r hr x hx
      rw [groupIncl_eq, if_neg]
      intro hxn
      have := hd r (by simp [hr]) n (by simp) x hx hxn
      exact hn'.2.2 r hr n (by simp) this
    have hout : ∀ r ∈ l ++ [n], ∀ s ∈ syms r, ∀ c ∈ (S s).calls, c.1 ∉ syms r → a c.1 = groupIncl cost S syms a n c.1 := by
      intro r hr s hs c hcc hcr
      rcases List.mem_append.1 hr with hr | hr
      · obtain ⟨l1, l2, rfl⟩ := List.append_of_mem hr
        obtain ⟨r', hr', hm⟩ := hc l1 r (l2 ++ [n]) (by simp) s hs c hcc hcr
        exact (hold r' (by simp [hr']) c.1 hm).symm
      · rw [List.mem_singleton] at hr; subst hr
        obtain ⟨r', hr', hm⟩ := hc l r [] rfl s hs c hcc hcr
        exact (hold r' hr' c.1 hm).symm
    have hsum : ∀ r ∈ l ++ [n], (syms r).map (ownCost cost S a (· ∈ syms r)) = (syms r).map (ownCost cost S (groupIncl cost S syms a n) (· ∈ syms r)) := by
      intro r hr
      exact List.map_congr_left fun s hs => ownCost_congr cost S (fun _ _ => Iff.rfl) fun c hcc hcr => hout r hr s hs c hcc hcr
    rw [← hsum r hr]
    rcases List.mem_append.1 hr with hr' | hr'
    · rw [hold r hr' x hx, ih r hr' x hx]
    · rw [List.mem_singleton] at hr'; subst hr'
      rw [groupIncl_eq, if_pos hx]

variable {E : Nat → List Nat} {ns : List Nat}

/-- Does the map `g` put two functions together exactly if they can call each other? -/
def Exact (E : Nat → List Nat) (ns : List Nat) (g : Nat → Option Nat) : Prop := ∀ a ∈ ns, ∀ b ∈ ns, (g a = g b ↔ Mutual E a b)

/-- **C17: for every call graph and every iteration order of the hash sets, either functions are grouped exactly by mutual
reachability and the inclusive counts are those of the specification, or two functions that can call each other are in different
groups and the tool stops with "Found a Loop".** -/
theorem inclusive_counts_partial (cost : Nat → Nat → Nat → Nat) (S : Nat → Sym) (order : (Nat → List Nat) → Nat → List Nat) (orderN : List Nat → List Nat)
    (hn : ns.Nodup) (hcl : ∀ v ∈ ns, ∀ c ∈ (S v).calls, c.1 ∈ ns) (hE : ∀ v ∈ ns, ∀ w, w ∈ E v ↔ ∃ c ∈ (S v).calls, c.1 = w)
    (ho : ∀ C v w, w ∈ order C v ↔ w ∈ C v) (hN : ∀ l, (orderN l).Perm l) :
    ∃ st, findScc E ns = some st ∧
      ((∃ incl, computeIncl cost S E ns order orderN = some (.ok incl) ∧ Exact E ns st.scc ∧ Inclusive cost S E ns incl) ∨
       (computeIncl cost S E ns order orderN = some (.error .loop) ∧ ∃ a ∈ ns, ∃ b ∈ ns, Mutual E a b ∧ st.scc a ≠ st.scc b)) := by
  have hc : Closed E ns := by
    intro v hv w hw
    obtain ⟨c, hc, rfl⟩ := (hE v hv w).1 hw
    exact hcl v hv c hc
  obtain ⟨st, e, hst, -⟩ := findScc_ok hc
  refine ⟨st, e, ?_⟩
  unfold computeIncl
  rw [e, Option.map_some]
  generalize hroot : (fun n => (st.scc n).getD 0) = root
  have hr : ∀ v ∈ ns, root v ∈ ns ∧ st.scc v = some (root v) ∧ root (root v) = root v ∧ Mutual E v (root v) := by
    intro v hv
    obtain ⟨r, h1, h2, h3, h4⟩ := hst v hv
    have : root v = r := by rw [← hroot]; simp [h2]
    rw [this]
    exact ⟨h1, h2, by rw [← hroot]; simp [h3], h4⟩
  have hroots : ∀ a ∈ ns, ∀ b ∈ ns, (st.scc a = st.scc b ↔ root a = root b) := by
    intro a ha b hb
    rw [(hr a ha).2.1, (hr b hb).2.1, Option.some.injEq]
  have hi : ∀ n ∈ ns, root (root n) = root n := fun n h => (hr n h).2.2.1
  have hco := fun {r : Nat} => collapse_ok (r := r) hi hc hn
  have hns' : ∀ x, x ∈ orderN (collapse root E ns).1 ↔ x ∈ ns ∧ x = root x := by
    intro x
    rw [(hN _).mem_iff]
    unfold collapse
    simp
  have hclos : Closed (order (collapse root E ns).2.callees) (orderN (collapse root E ns).1) := by
    intro v hv w hw
    rw [hns'] at hv
    rw [ho, (hco hv.1 hv.2.symm).2] at hw
    obtain ⟨_, m, hm, _, w', hw', rfl⟩ := hw
    have hw'n := hc m hm w' hw'
    rw [hns']
    exact ⟨(hr w' hw'n).1, (hi w' hw'n).symm⟩
  -- paths between groups and between functions
  have hdown : ∀ a b, a ∈ ns → a = root a → Path (order (collapse root E ns).2.callees) a b → (b ∈ ns ∧ b = root b ∧ Reach E a b) := by
    intro a b ha har p
    induction p with
    | single hab =>
      rw [ho, (hco ha har.symm).2] at hab
      obtain ⟨_, m, hm, hmr, w, hw, rfl⟩ := hab
      have hwn := hc m hm w hw
      refine ⟨(hr w hwn).1, (hi w hwn).symm, ?_⟩
      have h1 : Reach E a m := hmr ▸ (hr m hm).2.2.2.2
      exact Relation.ReflTransGen.trans (Relation.ReflTransGen.tail h1 hw) (hr w hwn).2.2.2.1
    | tail _ hbc ih =>
      obtain ⟨hb, hbr, hab⟩ := ih
      rw [ho, (hco hb hbr.symm).2] at hbc
      obtain ⟨_, m, hm, hmr, w, hw, rfl⟩ := hbc
      have hwn := hc m hm w hw
      refine ⟨(hr w hwn).1, (hi w hwn).symm, ?_⟩
      have h1 : Reach E _ m := hmr ▸ (hr m hm).2.2.2.2
      exact Relation.ReflTransGen.trans hab (Relation.ReflTransGen.trans (Relation.ReflTransGen.tail h1 hw) (hr w hwn).2.2.2.1)
  have hup : ∀ a b, a ∈ ns → Reach E a b → (b ∈ ns ∧ (root a = root b ∨ Path (order (collapse root E ns).2.callees) (root a) (root b))) := by
    intro a b ha p
    induction p with
    | refl => exact ⟨ha, Or.inl rfl⟩
    | tail _ hbc ih =>
      rename_i b c _
      obtain ⟨hb, ih⟩ := ih
      have hcn := hc b hb c hbc
      refine ⟨hcn, ?_⟩
      by_cases e : root b = root c
      · rwa [← e]
      · have hstep : root c ∈ order (collapse root E ns).2.callees (root b) := by
          rw [ho, (hco (hr b hb).1 (hi b hb)).2]
          exact ⟨Ne.symm e, b, hb, rfl, c, hbc, rfl⟩
        right
        rcases ih with ih | ih
        · rw [ih]; exact Relation.TransGen.single hstep
        · exact Relation.TransGen.tail ih hstep
  rcases topoSort_ok hclos with ⟨sorted, es, snd, smem, sord, acyc⟩ | ⟨es, x, hx, p⟩
  · left
    rw [es]
    have hexact : ∀ a ∈ ns, ∀ b ∈ ns, (root a = root b ↔ Mutual E a b) := by
      intro a ha b hb
      constructor
      · intro he
        have h1 := (hr a ha).2.2.2
        have h2 := (hr b hb).2.2.2
        rw [← he] at h2
        exact ⟨Relation.ReflTransGen.trans h1.1 h2.2, Relation.ReflTransGen.trans h2.1 h1.2⟩
      · rintro ⟨h1, h2⟩
        by_contra hne
        have p1 := (hup a b ha h1).2.resolve_left hne
        have p2 := (hup b a hb h2).2.resolve_left (Ne.symm hne)
        exact acyc ⟨root a, (hns' _).2 ⟨(hr a ha).1, (hi a ha).symm⟩, Relation.TransGen.trans p1 p2⟩
    refine ⟨_, rfl, fun a ha b hb => by rw [hroots a ha b hb, hexact a ha b hb], ?_⟩
    intro v hv
    have hmemS : ∀ r ∈ sorted, ∀ x, x ∈ (collapse root E ns).2.syms r ↔ x ∈ ns ∧ root x = r := by
      intro r hrs x
      have hr' := (hns' r).1 ((smem r).1 hrs)
      rw [(hco hr'.1 hr'.2.symm).1.mem_iff, List.mem_filter, decide_eq_true_eq]
    have hrv : root v ∈ sorted := (smem _).2 ((hns' _).2 ⟨(hr v hv).1, (hi v hv).symm⟩)
    have := fold_incl cost S (collapse root E ns).2.syms sorted snd (by
      intro r hr1 r' hr2 x hx hx'
      rw [hmemS r hr1] at hx; rw [hmemS r' hr2] at hx'
      rw [← hx.2, ← hx'.2]) (by
      intro l r rest el s hs c hcc hcr
      have hrs : r ∈ sorted := by rw [el]; simp
      rw [hmemS r hrs] at hs hcr
      have hcn := hcl s hs.1 c hcc
      have hr' := (hns' r).1 ((smem r).1 hrs)
      refine ⟨root c.1, ?_, ?_⟩
      · refine sord l r rest el _ ?_
        rw [ho, (hco hr'.1 hr'.2.symm).2]
        exact ⟨fun e => hcr ⟨hcn, e⟩, s, hs.1, hs.2, c.1, (hE s hs.1 c.1).2 ⟨c, hcc, rfl⟩, rfl⟩
      · rw [hmemS _ ((smem _).2 ((hns' _).2 ⟨(hr _ hcn).1, (hi _ hcn).symm⟩))]
        exact ⟨hcn, rfl⟩) (root v) hrv v ((hmemS _ hrv v).2 ⟨hv, rfl⟩)
    beta_reduce
    rw [this]
    congr 1
    have hperm := (hco (hr v hv).1 (hi v hv)).1
    rw [(hperm.map _).sum_eq]
    have hfil : (ns.filter fun x => decide (root x = root v)) = ns.filter fun u => @decide (Mutual E u v) (Classical.propDecidable _) := by
      refine List.filter_congr fun u hu => ?_
      have := hexact u hu v hv
      by_cases h : root u = root v <;> simp [h] at this ⊢ <;> exact this
    rw [hfil]
    congr 1
    refine List.map_congr_left fun u hu => ?_
    rw [List.mem_filter] at hu
    refine ownCost_congr cost S (fun c hcc => ?_) fun _ _ _ => rfl
    have hcn := hcl u hu.1 c hcc
    rw [hmemS _ hrv, ← hexact v hv c.1 hcn]
    exact ⟨fun h => h.2.symm, fun h => ⟨hcn, h.symm⟩⟩
  · right
    rw [es]
    refine ⟨rfl, ?_⟩
    rw [hns'] at hx
    -- the cycle leaves the group of `x`
    have : ∃ y, y ∈ order (collapse root E ns).2.callees x ∧ (y = x ∨ Path (order (collapse root E ns).2.callees) y x) := by
      obtain ⟨y, h1, h2⟩ := Relation.TransGen.head'_iff.1 p
      exact ⟨y, h1, (Relation.reflTransGen_iff_eq_or_transGen.1 h2).imp_left Eq.symm⟩
    obtain ⟨y, hy, hyx⟩ := this
    have hxy := hdown x y hx.1 hx.2 (Relation.TransGen.single hy)
    have hne : y ≠ x := by
      rw [ho, (hco hx.1 hx.2.symm).2] at hy
      exact hy.1
    refine ⟨x, hx.1, y, hxy.1, ⟨hxy.2.2, ?_⟩, ?_⟩
    · exact (hdown y x hxy.1 hxy.2.1 (hyx.resolve_left hne)).2.2
    · rw [Ne, hroots x hx.1 y hxy.1, ← hx.2, ← hxy.2.1]
      exact Ne.symm hne

/-- **C17, where recursion is direct only: the counts are always computed.** -/
theorem inclusive_counts_acyclic_partial (cost : Nat → Nat → Nat → Nat) (S : Nat → Sym) (order : (Nat → List Nat) → Nat → List Nat) (orderN : List Nat → List Nat)
    (hn : ns.Nodup) (hcl : ∀ v ∈ ns, ∀ c ∈ (S v).calls, c.1 ∈ ns) (hE : ∀ v ∈ ns, ∀ w, w ∈ E v ↔ ∃ c ∈ (S v).calls, c.1 = w)
    (ho : ∀ C v w, w ∈ order C v ↔ w ∈ C v) (hN : ∀ l, (orderN l).Perm l) (hac : ∀ a ∈ ns, ∀ b ∈ ns, Mutual E a b → a = b) :
    ∃ incl, computeIncl cost S E ns order orderN = some (.ok incl) ∧ Inclusive cost S E ns incl := by
  obtain ⟨st, _, ⟨incl, h, _, hi⟩ | ⟨_, a, ha, b, hb, hm, hne⟩⟩ := inclusive_counts_partial cost S order orderN hn hcl hE ho hN
  · exact ⟨incl, h, hi⟩
  · exact absurd (by rw [hac a ha b hb hm]) hne

/-! ### Examples -/

/-- 0 calls 1 and 3, 1 calls 2 and 0, 2 calls 1, 3 calls 2: all four can call each other. -/
def exE : Nat → List Nat | 0 => [1, 3] | 1 => [2, 0] | 2 => [1] | 3 => [2] | _ => []

/-- `static_cast<uint64_t>(static_cast<float>(incl) / calls * count)` without rounding. -/
def exCost (incl calls count : Nat) : Nat := incl * count / calls

def exS (E : Nat → List Nat) (v : Nat) : Sym := ⟨10 * v + 1, v, (E v).map fun w => (w, 2)⟩

/-- What the tool ends with. -/
def outcome (E : Nat → List Nat) (ns : List Nat) : Option (Option (List Nat)) :=
  (computeIncl exCost (exS E) E ns (fun C => C) (fun l => l)).map fun r => match r with | .ok f => some (ns.map f) | .error _ => none

/-- **C17 fails: four functions that can all call each other, for which the tool stops.** -/
theorem inclusive_counts_violated : (∀ a ∈ [0, 1, 2, 3], ∀ b ∈ [0, 1, 2, 3], Mutual exE a b) ∧
    ((computeIncl exCost (exS exE) exE [0, 1, 2, 3] (fun C => C) (fun l => l)).map fun r => match r with | .ok _ => none | .error e => some e) =
      some (some Err.loop) := by
  constructor
  · have h01 : Reach exE 0 1 := Relation.ReflTransGen.single (by decide)
    have h12 : Reach exE 1 2 := Relation.ReflTransGen.single (by decide)
    have h10 : Reach exE 1 0 := Relation.ReflTransGen.single (by decide)
    have h21 : Reach exE 2 1 := Relation.ReflTransGen.single (by decide)
    have h03 : Reach exE 0 3 := Relation.ReflTransGen.single (by decide)
    have h32 : Reach exE 3 2 := Relation.ReflTransGen.single (by decide)
    have to0 : ∀ a ∈ [0, 1, 2, 3], Reach exE a 0 := by
      intro a ha
      simp only [List.mem_cons, List.not_mem_nil, or_false] at ha
      rcases ha with rfl | rfl | rfl | rfl
      · exact Relation.ReflTransGen.refl
      · exact h10
      · exact h21.trans h10
      · exact h32.trans (h21.trans h10)
    have from0 : ∀ a ∈ [0, 1, 2, 3], Reach exE 0 a := by
      intro a ha
      simp only [List.mem_cons, List.not_mem_nil, or_false] at ha
      rcases ha with rfl | rfl | rfl | rfl
      · exact Relation.ReflTransGen.refl
      · exact h01
      · exact h01.trans h12
      · exact h03
    exact fun a ha b hb => ⟨(to0 a ha).trans (from0 b hb), (to0 b hb).trans (from0 a ha)⟩
  · decide +kernel

/-- Two functions that call each other, called by and calling others: the pair shares one count. -/
def exE2 : Nat → List Nat | 0 => [1, 4] | 1 => [2] | 2 => [1, 3] | _ => []
example : outcome exE2 [0, 1, 2, 3, 4] = some (some [125, 52, 52, 31, 41]) := by decide +kernel
example : outcome exE [0, 1, 2, 3] = some none := by decide +kernel
example : ∀ v ∈ [0, 1, 2, 3, 4], ∀ c ∈ (exS exE2 v).calls, c.1 ∈ [0, 1, 2, 3, 4] := by decide
example : ∀ v ∈ [0, 1, 2, 3, 4], ∀ w, w ∈ exE2 v ↔ ∃ c ∈ (exS exE2 v).calls, c.1 = w := by intro v _ w; simp [exS]

end Verif.Scc
