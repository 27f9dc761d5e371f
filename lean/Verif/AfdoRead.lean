import Verif.AfdoLemmas

/-! # Reading back a whole AFDO profile (lemmas for C07) -/
namespace Verif.Afdo
open Verif Verif.Gcov Verif.SymbolMap

/-- The symbol a reader obtains from reading the written form of `t` on top of `r`. -/
def loadTop (t : Top) (r : Sym) : Sym :=
  (symEvents [] t.sym).foldl Ev.app
    (.mk { r.data with head := r.data.head + t.sym.data.head } r.calls)

/-- One function of the file. -/
structure TopFits (t : Top) : Prop where
  sym : SymFits t.sym
  head : t.sym.data.head < 18446744073709551616
  ts : t.ts < 18446744073709551616

theorem set_emplace {m : SymMap} (hm : OMap.Sorted m) (k : Name) (a b : Sym) :
    OMap.set k b (OMap.emplace k a m) = OMap.set k b m := by
  apply OMap.ext
  · exact OMap.Sorted.upsert (OMap.Sorted.upsert hm _ _) _ _
  · exact OMap.Sorted.upsert hm _ _
  · intro x
    unfold OMap.set OMap.emplace
    rw [OMap.find?_upsert (OMap.Sorted.upsert hm _ _), OMap.find?_upsert hm, OMap.find?_upsert hm]
    split <;> simp_all

theorem readTop_enc {cfg : Cfg} {strs : List Name} (hc : CfgOk cfg strs) (t : Top) (hf : TopFits t)
    (name : Name) (hst : ∀ n ∈ symTargets t.sym, originalName cfg.pol n = n) (b : List UInt8)
    (hw : writeTop cfg.version strs name t = some b) (fuel : Nat) (hfuel : b.length ≤ fuel)
    (rest : List UInt8) (m : SymMap) (tsm : OMap Name Nat) (hm : OMap.Sorted m)
    (hupd : cfg.force = true ∨ ((OMap.find? m name).getD Sym.new).data.total = 0) :
    readSym cfg fuel [] true ⟨b ++ rest, m, tsm⟩ =
      some ⟨rest, OMap.set name (loadTop t ((OMap.find? m name).getD Sym.new)) m,
        OMap.set name (if cfg.version ≥ 3 then t.ts else 0) tsm⟩ := by
  obtain ⟨s, ts⟩ := t
  unfold writeTop at hw
  by_cases hn : name = []
  · rw [if_pos hn] at hw; cases hw
  rw [if_neg hn] at hw
  cases hi : indexOf name strs with
  | none => simp [hi] at hw
  | some i =>
    cases hb : writeSym strs s with
    | none => simp [hi, hb] at hw
    | some bs =>
      simp only [hi, hb] at hw
      by_cases hi0 : i = 0
      · rw [if_pos hi0] at hw; cases hw
      rw [if_neg hi0] at hw
      simp only [Option.some.injEq] at hw
      obtain ⟨d, cs⟩ := s
      obtain ⟨p, c, hp, hcl, rfl⟩ := writeSym_length hb
      have hfs := hf.sym
      simp only [SymFits] at hfs
      obtain ⟨f1, f2, f3, f4⟩ := hfs
      obtain ⟨hget, hlt⟩ := indexOf_get hi
      have hlen := hc.len
      have hlb : p.length + c.length + 12 ≤ b.length := by
        rw [← hw]; simp [Sym.data]; omega
      obtain ⟨fuel', rfl⟩ : ∃ k, fuel = k + 1 := ⟨fuel - 1, by omega⟩
      have hread : ∀ r', readSym cfg (fuel' + 1) [] true ⟨b ++ rest, m, tsm⟩ = r' ↔
          (do
            let (st, upd) ← readTopInfo cfg name d.head (if cfg.version ≥ 3 then ts else 0) true
              ⟨p ++ (c ++ rest), m, tsm⟩
            let st ← loopM (readPos cfg name [] upd) d.pos.length st
            loopM (readCall cfg fuel' name [] upd) cs.length st) = r' := by
        intro r'
        rw [← hw]
        unfold readSym
        simp only [List.isEmpty_nil, if_true, Bool.true_and, List.append_assoc, Sym.data]
        have hh : d.head < 18446744073709551616 := hf.head
        have hts : ts < 18446744073709551616 := hf.ts
        rw [readC hh]
        simp only [Option.bind_eq_bind, Option.bind_some]
        by_cases hv : cfg.version ≥ 3
        · simp only [hv, decide_true, if_true]
          rw [readC hts]
          simp only [Option.bind_some]
          rw [readU (by omega)]
          simp only [Option.bind_some]
          rw [hc.names, hget]
          simp only [Option.bind_some]
          rw [readU f2]
          simp only [Option.bind_some]
          rw [readU f3]
          simp only [Option.bind_some]
          unfold readCall
          simp only [Option.bind_eq_bind]
        · simp only [hv, decide_false, if_false, List.nil_append, Bool.false_eq_true]
          rw [readU (by omega)]
          simp only [Option.bind_some]
          rw [hc.names, hget]
          simp only [Option.bind_some]
          rw [readU f2]
          simp only [Option.bind_some]
          rw [readU f3]
          simp only [Option.bind_some]
          unfold readCall
          simp only [Option.bind_eq_bind]
      rw [hread]
      have hupd' : readTopInfo cfg name d.head (if cfg.version ≥ 3 then ts else 0) true
              ⟨p ++ (c ++ rest), m, tsm⟩ = some (⟨p ++ (c ++ rest),
                OMap.set name (.mk { ((OMap.find? m name).getD Sym.new).data with
                  head := ((OMap.find? m name).getD Sym.new).data.head + d.head }
                  ((OMap.find? m name).getD Sym.new).calls) m,
                OMap.set name (if cfg.version ≥ 3 then ts else 0) tsm⟩, true) := by
        unfold readTopInfo
        have hfd : OMap.find? (OMap.emplace name Sym.new m) name =
            some ((OMap.find? m name).getD Sym.new) := by
          unfold OMap.emplace; rw [OMap.find?_upsert hm, if_pos rfl]
        simp only [hfd, Option.bind_eq_bind, Option.bind_some, addSymbolEntryCount]
        rw [show (if (!cfg.force && decide (((OMap.find? m name).getD Sym.new).data.total > 0)) = true
          then false else true) = true by
            rcases hupd with h | h
            · simp [h]
            · simp [h]]
        simp only [Bool.or_true, if_true]
        generalize ((OMap.find? m name).getD Sym.new) = r0
        obtain ⟨rd, rc⟩ := r0
        simp only [Option.bind_some, Nat.add_zero, set_emplace hm, Sym.data, Sym.calls]
      rw [hupd']
      simp only [Option.bind_eq_bind, Option.bind_some]
      have e1 := readPos_enc hc name [] true (by simp) d.pos f1 (fun n hn => hst n (by
        simp only [symTargets, List.mem_append]; exact Or.inl hn)) p hp (c ++ rest) _
        (OMap.set name (if cfg.version ≥ 3 then ts else 0) tsm)
        (sorted_set hm name (.mk { ((OMap.find? m name).getD Sym.new).data with
                  head := ((OMap.find? m name).getD Sym.new).data.head + d.head }
                  ((OMap.find? m name).getD Sym.new).calls)) _ (find?_set_self hm _ _)
      simp only [List.getLast?_nil, Option.map_none, Option.getD_none] at e1
      rw [e1, set_set hm]
      simp only [Option.bind_some]
      have e2 := readCalls_enc hc true (by simp) cs f4 (fun n hn => hst n (by
        simp only [symTargets, List.mem_append]; exact Or.inr hn)) c hcl name [] fuel'
        (by omega) rest _ (OMap.set name (if cfg.version ≥ 3 then ts else 0) tsm)
        (sorted_set hm name (List.foldl Ev.app (.mk { ((OMap.find? m name).getD Sym.new).data with
                  head := ((OMap.find? m name).getD Sym.new).data.head + d.head }
                  ((OMap.find? m name).getD Sym.new).calls) (posEvents (pathOf name []) d.pos)))
        _ (find?_set_self hm _ _)
      simp only [List.getLast?_nil, Option.map_none, Option.getD_none] at e2
      rw [e2, set_set hm]
      simp only [loadTop, symEvents, List.foldl_append, pathOf_nil, Sym.data]

/-- Effect of reading all functions of a file on the map. -/
def loadAll (syms : List (Name × Top)) (m : SymMap) : SymMap :=
  syms.foldl (fun m p => OMap.set p.1 (loadTop p.2 ((OMap.find? m p.1).getD Sym.new)) m) m

/-- Effect of reading all functions on the timestamps. -/
def loadTs (v : Nat) (syms : List (Name × Top)) (tsm : OMap Name Nat) : OMap Name Nat :=
  syms.foldl (fun m p => OMap.set p.1 (if v ≥ 3 then p.2.ts else 0) m) tsm

theorem readTops_enc {cfg : Cfg} {strs : List Name} (hc : CfgOk cfg strs) (syms : List (Name × Top))
    (hnd : (syms.map Prod.fst).Nodup)
    (hf : ∀ p ∈ syms, TopFits p.2)
    (hst : ∀ p ∈ syms, ∀ n ∈ symTargets p.2.sym, originalName cfg.pol n = n) (b : List UInt8)
    (hw : writeTops cfg.version strs syms = some b) (fuel : Nat) (hfuel : b.length ≤ fuel)
    (rest : List UInt8) (m : SymMap) (tsm : OMap Name Nat) (hm : OMap.Sorted m)
    (hupd : cfg.force = true ∨ ∀ p ∈ syms, ((OMap.find? m p.1).getD Sym.new).data.total = 0) :
    loopM (readSym cfg fuel [] true) syms.length ⟨b ++ rest, m, tsm⟩ =
      some ⟨rest, loadAll syms m, loadTs cfg.version syms tsm⟩ := by
  induction syms generalizing b m tsm with
  | nil =>
    simp only [writeTops, Option.some.injEq] at hw
    subst hw
    simp [loopM, loadAll, loadTs]
  | cons p syms ih =>
    obtain ⟨n, t⟩ := p
    simp only [writeTops] at hw
    cases ht : writeTop cfg.version strs n t with
    | none => simp [ht] at hw
    | some bt =>
      cases hb : writeTops cfg.version strs syms with
      | none => simp [ht, hb] at hw
      | some b' =>
        simp only [ht, hb, Option.some.injEq] at hw
        subst hw
        simp only [List.length_append] at hfuel
        rw [List.length_cons]
        simp only [loopM, List.append_assoc]
        rw [readTop_enc hc t (hf _ List.mem_cons_self) n (hst _ List.mem_cons_self) bt ht fuel
          (by omega) (b' ++ rest) m tsm hm (by
            rcases hupd with h | h
            · exact Or.inl h
            · exact Or.inr (h _ List.mem_cons_self))]
        simp only [Option.bind_some]
        simp only [List.map_cons, List.nodup_cons] at hnd
        rw [ih hnd.2 (fun q hq => hf q (List.mem_cons_of_mem _ hq))
          (fun q hq => hst q (List.mem_cons_of_mem _ hq)) b' hb (by omega) _ _ (sorted_set hm _ _)]
        · rfl
        · rcases hupd with h | h
          · exact Or.inl h
          · right
            intro q hq
            have hne : q.1 ≠ n := by
              rintro rfl
              exact hnd.1 (List.mem_map.2 ⟨q, hq, rfl⟩)
            have : OMap.find? (OMap.set n (loadTop t ((OMap.find? m n).getD Sym.new)) m) q.1 =
                OMap.find? m q.1 := by
              unfold OMap.set; rw [OMap.find?_upsert hm, if_neg hne]
            rw [this]
            exact h q (List.mem_cons_of_mem _ hq)

/-- The result, by name. -/
theorem loadAll_find? (syms : List (Name × Top)) (hnd : (syms.map Prod.fst).Nodup) (m : SymMap)
    (hm : OMap.Sorted m) :
    OMap.Sorted (loadAll syms m) ∧
    ∀ n, OMap.find? (loadAll syms m) n =
      match OMap.find? syms n with
      | none => OMap.find? m n
      | some t => some (loadTop t ((OMap.find? m n).getD Sym.new)) := by
  induction syms generalizing m with
  | nil => exact ⟨hm, fun n => by simp [loadAll, OMap.find?]⟩
  | cons p syms ih =>
    obtain ⟨k, t⟩ := p
    simp only [List.map_cons, List.nodup_cons] at hnd
    obtain ⟨h1, h2⟩ := ih hnd.2 (OMap.set k (loadTop t ((OMap.find? m k).getD Sym.new)) m)
      (sorted_set hm _ _)
    refine ⟨h1, fun n => ?_⟩
    have := h2 n
    unfold loadAll at this ⊢
    rw [List.foldl_cons, this]
    by_cases hn : n = k
    · subst hn
      have hl : OMap.find? syms n = none := by
        cases h : OMap.find? syms n with
        | none => rfl
        | some x => exact absurd (List.mem_map.2 ⟨_, OMap.mem_of_find?_some h, rfl⟩) hnd.1
      rw [hl, find?_set_self hm]
      simp [OMap.find?]
    · have e : OMap.find? (OMap.set k (loadTop t ((OMap.find? m k).getD Sym.new)) m) n =
          OMap.find? m n := by
        unfold OMap.set; rw [OMap.find?_upsert hm, if_neg hn]
      have e2 : OMap.find? ((k, t) :: syms) n = OMap.find? syms n := by
        simp only [OMap.find?]; rw [if_neg hn]
      rw [e, e2]

end Verif.Afdo
