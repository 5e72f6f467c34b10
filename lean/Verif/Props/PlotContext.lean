import Verif.Spec.PlotContext
import Mathlib.Data.List.Perm.Basic
/-
C149: plot contexts.
-/
set_option linter.unusedSimpArgs false
namespace Prolothar.PlotContext
open Prolothar.Spec.PlotContext

theorem construct_cases (env : Env) (cfg : Config) (w : World) :
    ((cfg.log.any fun p => !env.canOpen p) = true ∧ construct env cfg w = .error .value) ∨
    ((cfg.log.any fun p => !env.canOpen p) = false ∧ ∃ w1, construct env cfg w = .ok w1 ∧ w1.opened = w.opened ∧ w1.next = w.next ∧
      w1.done = w.done ∧ w1.logs = w.logs ++ cfg.log.toList ∧
      (∀ p, w1.files p = if cfg.log = some p then some (.log []) else w.files p)) := by
  unfold construct
  cases hl : cfg.log with
  | none => exact .inr ⟨rfl, w, rfl, rfl, rfl, rfl, by simp, fun p => by simp⟩
  | some path =>
    by_cases ho : env.canOpen path = true
    · refine .inr ⟨by simp [ho], { w with files := upd w.files path (some (.log [])), logs := w.logs ++ [path] }, by simp only [ho, if_true], rfl, rfl, rfl, rfl, fun p => ?_⟩
      by_cases hp : path = p
      · subst hp; simp
      · rw [if_neg (by simpa using hp)]
        exact upd_ne _ _ (Ne.symm hp)
    · exact .inl ⟨by simp [ho], by simp [ho]⟩

theorem exit_cases (env : Env) (cfg : Config) (fig : Nat) (w : World) :
    ((cfg.file.any fun p => !env.canSave p) = true ∧ exit env cfg fig w = (w, true)) ∨
    ((cfg.file.any fun p => !env.canSave p) = false ∧ ∃ w1, exit env cfg fig w = (w1, false) ∧ w1.next = w.next ∧ w1.done = w.done ∧
      w1.opened = (if cfg.show_ then (if env.blocking then [] else w.opened) else w.opened.dropLast) ∧
      w1.logs = cfg.log.elim w.logs w.logs.erase ∧
      (∀ p, w1.files p = if cfg.file = some p then some (.picture (drawn w fig)) else w.files p)) := by
  have key : ∀ w : World, (closeLog cfg (showOrClose env cfg w)).next = w.next ∧ (closeLog cfg (showOrClose env cfg w)).done = w.done ∧
      (closeLog cfg (showOrClose env cfg w)).opened = (if cfg.show_ then (if env.blocking then [] else w.opened) else w.opened.dropLast) ∧
      (closeLog cfg (showOrClose env cfg w)).logs = cfg.log.elim w.logs w.logs.erase ∧
      (closeLog cfg (showOrClose env cfg w)).files = w.files := by
    intro w
    unfold closeLog showOrClose
    cases cfg.log <;> cases cfg.show_ <;> cases env.blocking <;> exact ⟨rfl, rfl, rfl, rfl, rfl⟩
  unfold exit
  cases hf : cfg.file with
  | none =>
    obtain ⟨h1, h2, h3, h4, h5⟩ := key w
    exact .inr ⟨rfl, _, rfl, h1, h2, h3, h4, fun p => by rw [h5]; simp⟩
  | some path =>
    by_cases hs : env.canSave path = true
    · obtain ⟨h1, h2, h3, h4, h5⟩ := key { w with files := upd w.files path (some (.picture (drawn w fig))) }
      refine .inr ⟨by simp [hs], _, by simp only [hs, if_true], h1, h2, h3, h4, fun p => ?_⟩
      rw [h5]
      by_cases hp : path = p
      · subst hp; simp
      · rw [if_neg (by simpa using hp)]
        exact upd_ne _ _ (Ne.symm hp)
    · exact .inl ⟨by simp [hs], by simp [hs]⟩

/-! ### exceptions -/

mutual
theorem exec_raises (env : Env) : ∀ (s : Stmt) (ctxs : List Ctx) (w : World), (exec env ctxs s w).2 = Raises env ctxs.length s
  | .call k c fails, ctxs, w => by
    rw [exec, Raises]
    by_cases hk : k < ctxs.length
    · rw [List.getElem?_eq_getElem hk]
      simp; omega
    · rw [List.getElem?_eq_none (by omega)]
      simp; omega
  | .figure, ctxs, w => by rw [exec, Raises]
  | .raise, ctxs, w => by rw [exec, Raises]
  | .block cfg body, ctxs, w => by
    rw [exec, Raises]
    rcases construct_cases env cfg w with ⟨h1, h2⟩ | ⟨h1, w1, h2, _⟩
    · rw [h2, h1]; simp
    · rw [h2, h1]
      dsimp only
      have ih := execAll_raises env body (⟨w1.next, cfg.log⟩ :: ctxs) (newFigure w1)
      rw [ih]
      rcases exit_cases env cfg w1.next (execAll env (⟨w1.next, cfg.log⟩ :: ctxs) body (newFigure w1)).1 with ⟨e1, e2⟩ | ⟨e1, w2, e2, _⟩
      · rw [e2, e1]; simp
      · rw [e2, e1]; simp
theorem execAll_raises (env : Env) : ∀ (ss : List Stmt) (ctxs : List Ctx) (w : World), (execAll env ctxs ss w).2 = SomeRaises env ctxs.length ss
  | [], ctxs, w => by rw [execAll, SomeRaises]
  | s :: ss, ctxs, w => by
    rw [execAll, SomeRaises]
    have i1 := exec_raises env s ctxs w
    have i2 := execAll_raises env ss ctxs (exec env ctxs s w).1
    rw [← i1]
    cases h : (exec env ctxs s w).2
    · simp [i2]
    · simp [h]
end

/-- C149: exceptions are never swallowed: a program with plot contexts raises an exception iff a log file cannot be opened, a statement in a
body raises one or a figure cannot be saved. -/
theorem C149_exceptions (env : Env) (ctxs : List Ctx) (s : Stmt) (w : World) : (exec env ctxs s w).2 = true ↔ Raises env ctxs.length s = true := by
  rw [exec_raises]

/-! ### figures -/

mutual
theorem exec_opened (env : Env) : ∀ (s : Stmt) (ctxs : List Ctx) (w : World), Quiet s = true → Savable env s = true →
    (exec env ctxs s w).1.opened = w.opened
  | .call k c fails, ctxs, w, _, _ => by
    rw [exec]
    cases ctxs[k]? with
    | none => rfl
    | some ctx =>
      dsimp only
      unfold doCall writeLog
      cases ctx.log with
      | none => rfl
      | some p =>
        dsimp only
        cases logged c
        · rfl
        · simp only [if_true]
          split <;> rfl
  | .figure, _, _, hq, _ => by rw [Quiet] at hq; cases hq
  | .raise, ctxs, w, _, _ => by rw [exec]
  | .block cfg body, ctxs, w, hq, hs => by
    rw [Quiet, Bool.and_eq_true] at hq
    rw [Savable, Bool.and_eq_true] at hs
    rw [exec]
    rcases construct_cases env cfg w with ⟨h1, h2⟩ | ⟨h1, w1, h2, h3, _⟩
    · rw [h2]
    · rw [h2]
      dsimp only
      have ih := execAll_opened env body (⟨w1.next, cfg.log⟩ :: ctxs) (newFigure w1) hq.2 hs.2
      rcases exit_cases env cfg w1.next (execAll env (⟨w1.next, cfg.log⟩ :: ctxs) body (newFigure w1)).1 with ⟨e1, e2⟩ | ⟨e1, w2, e2, _, _, e5, _⟩
      · exfalso
        cases hf : cfg.file with
        | none => rw [hf] at e1; cases e1
        | some p => rw [hf] at e1 hs; simp at e1 hs; rw [hs.1] at e1; cases e1
      · rw [e2]
        dsimp only
        rw [e5, ih]
        have : cfg.show_ = false := by simpa using hq.1
        rw [this]
        simp [newFigure, h3]
theorem execAll_opened (env : Env) : ∀ (ss : List Stmt) (ctxs : List Ctx) (w : World), AllQuiet ss = true → AllSavable env ss = true →
    (execAll env ctxs ss w).1.opened = w.opened
  | [], ctxs, w, _, _ => by rw [execAll]
  | s :: ss, ctxs, w, hq, hs => by
    rw [AllQuiet, Bool.and_eq_true] at hq
    rw [AllSavable, Bool.and_eq_true] at hs
    rw [execAll]
    have i1 := exec_opened env s ctxs w hq.1 hs.1
    have i2 := execAll_opened env ss ctxs (exec env ctxs s w).1 hq.2 hs.2
    split
    · exact i1
    · rw [i2, i1]
end

/-- C149: contexts that do not show their figures and can save them close exactly the figures they have opened, also if their bodies, in which further
contexts can be nested, raise exceptions. -/
theorem C149_figures (env : Env) (ctxs : List Ctx) (cfg : Config) (body : List Stmt) (w : World) (hshow : cfg.show_ = false)
    (hsave : ∀ p, cfg.file = some p → env.canSave p = true) (hq : AllQuiet body = true) (hs : AllSavable env body = true) :
    (exec env ctxs (.block cfg body) w).1.opened = w.opened := by
  apply exec_opened
  · rw [Quiet, hshow, hq]; rfl
  · rw [Savable, hs]
    cases hf : cfg.file with
    | none => rfl
    | some p => simp [hsave p hf]

mutual
theorem exec_logs (env : Env) : ∀ (s : Stmt) (ctxs : List Ctx) (w : World), Savable env s = true →
    (exec env ctxs s w).1.logs.Perm w.logs
  | .call k c fails, ctxs, w, _ => by
    rw [exec]
    cases ctxs[k]? with
    | none => exact .refl _
    | some ctx =>
      dsimp only
      unfold doCall writeLog
      cases ctx.log with
      | none => exact .refl _
      | some p =>
        dsimp only
        cases logged c
        · exact .refl _
        · simp only [if_true]
          split <;> exact .refl _
  | .figure, _, _, _ => by rw [exec]; exact .refl _
  | .raise, ctxs, w, _ => by rw [exec]
  | .block cfg body, ctxs, w, hs => by
    rw [Savable, Bool.and_eq_true] at hs
    rw [exec]
    rcases construct_cases env cfg w with ⟨h1, h2⟩ | ⟨h1, w1, h2, h3, _, _, h6, _⟩
    · rw [h2]
    · rw [h2]
      dsimp only
      have ih := execAll_logs env body (⟨w1.next, cfg.log⟩ :: ctxs) (newFigure w1) hs.2
      rcases exit_cases env cfg w1.next (execAll env (⟨w1.next, cfg.log⟩ :: ctxs) body (newFigure w1)).1 with ⟨e1, e2⟩ | ⟨e1, w2, e2, _, _, _, e6, _⟩
      · exfalso
        cases hf : cfg.file with
        | none => rw [hf] at e1; cases e1
        | some p => rw [hf] at e1 hs; simp at e1 hs; rw [hs.1] at e1; cases e1
      · rw [e2]
        dsimp only
        rw [e6]
        have h7 : (newFigure w1).logs = w.logs ++ cfg.log.toList := h6
        rw [h7] at ih
        cases hl : cfg.log with
        | none =>
          rw [hl] at ih
          simpa using ih
        | some p =>
          rw [hl] at ih
          simp only [Option.elim_some]
          refine (ih.erase p).trans ?_
          simp only [Option.toList_some]
          refine ((List.perm_append_singleton p w.logs).erase p).trans ?_
          rw [List.erase_cons_head]
theorem execAll_logs (env : Env) : ∀ (ss : List Stmt) (ctxs : List Ctx) (w : World), AllSavable env ss = true →
    (execAll env ctxs ss w).1.logs.Perm w.logs
  | [], ctxs, w, _ => by rw [execAll]
  | s :: ss, ctxs, w, hs => by
    rw [AllSavable, Bool.and_eq_true] at hs
    rw [execAll]
    have i1 := exec_logs env s ctxs w hs.1
    have i2 := execAll_logs env ss ctxs (exec env ctxs s w).1 hs.2
    split
    · exact i1
    · exact i2.trans i1
end

/-- C149: if all figures can be saved then all log files that were opened are closed again, whatever exceptions are raised. -/
theorem C149_logs_closed (env : Env) (ctxs : List Ctx) (s : Stmt) (w : World) (h : Savable env s = true) :
    (exec env ctxs s w).1.logs.Perm w.logs := exec_logs env s ctxs w h

/-- C149, deviation: if a figure cannot be saved then its context closes neither the figure nor the log file. -/
theorem C149_not_saved (env : Env) (ctxs : List Ctx) (cfg : Config) (body : List Stmt) (w : World) (p : String)
    (hf : cfg.file = some p) (hp : env.canSave p = false) (hl : ∀ l, cfg.log = some l → env.canOpen l = true)
    (hq : AllQuiet body = true) (hs : AllSavable env body = true) :
    (exec env ctxs (.block cfg body) w).1.opened = w.opened ++ [w.next] ∧
    (exec env ctxs (.block cfg body) w).1.logs.Perm (w.logs ++ cfg.log.toList) := by
  rw [exec]
  rcases construct_cases env cfg w with ⟨h1, h2⟩ | ⟨h1, w1, h2, h3, h4, _, h6, _⟩
  · exfalso
    cases hc : cfg.log with
    | none => rw [hc] at h1; cases h1
    | some l => rw [hc] at h1; simp [hl l hc] at h1
  · rw [h2]
    dsimp only
    have i1 := execAll_opened env body (⟨w1.next, cfg.log⟩ :: ctxs) (newFigure w1) hq hs
    have i2 := execAll_logs env body (⟨w1.next, cfg.log⟩ :: ctxs) (newFigure w1) hs
    rcases exit_cases env cfg w1.next (execAll env (⟨w1.next, cfg.log⟩ :: ctxs) body (newFigure w1)).1 with ⟨e1, e2⟩ | ⟨e1, w2, e2, _⟩
    · rw [e2]
      dsimp only
      rw [i1]
      refine ⟨by simp [newFigure, h3, h4], i2.trans ?_⟩
      show w1.logs.Perm _
      rw [h6]
    · rw [hf] at e1
      simp [hp] at e1

/-- C149, deviation: a context closes the current figure, which is not its own if the body has opened another one: the figure of the context
stays open. -/
theorem C149_wrong_figure (env : Env) (ctxs : List Ctx) (cfg : Config) (w : World) (hshow : cfg.show_ = false)
    (hl : ∀ l, cfg.log = some l → env.canOpen l = true) (hsave : ∀ p, cfg.file = some p → env.canSave p = true) :
    (exec env ctxs (.block cfg [.figure]) w).1.opened = w.opened ++ [w.next] := by
  rw [exec]
  rcases construct_cases env cfg w with ⟨h1, h2⟩ | ⟨h1, w1, h2, h3, h4, _, h6, _⟩
  · exfalso
    cases hc : cfg.log with
    | none => rw [hc] at h1; cases h1
    | some l => rw [hc] at h1; simp [hl l hc] at h1
  · rw [h2]
    dsimp only
    rcases exit_cases env cfg w1.next (execAll env (⟨w1.next, cfg.log⟩ :: ctxs) [.figure] (newFigure w1)).1 with ⟨e1, e2⟩ | ⟨e1, w2, e2, _, _, e5, _⟩
    · exfalso
      cases hf : cfg.file with
      | none => rw [hf] at e1; cases e1
      | some p => rw [hf] at e1; simp [hsave p hf] at e1
    · rw [e2]
      dsimp only
      rw [e5, hshow]
      simp only [Bool.false_eq_true, if_false]
      rw [execAll, exec]
      dsimp only
      rw [if_neg (by simp), execAll]
      show ((w1.opened ++ [w1.next]) ++ [w1.next + 1]).dropLast = _
      rw [List.dropLast_concat, h3, h4]

/-! ### what is drawn and logged -/

theorem doCall_done (ctx : Ctx) (c : Call) (fails : Bool) (w : World) :
    (doCall ctx c fails w).done = w.done ++ [(ctx.fig, c, fails)] ∧ (doCall ctx c fails w).next = w.next := by
  unfold doCall writeLog
  cases ctx.log with
  | none => exact ⟨rfl, rfl⟩
  | some p =>
    dsimp only
    cases logged c
    · exact ⟨rfl, rfl⟩
    · simp only [if_true]
      split <;> exact ⟨rfl, rfl⟩

/-- the calls of a list that are made for a figure -/
def onFig (fig : Nat) (l : List (Nat × Call × Bool)) : List (Call × Bool) := (l.filter fun d => decide (d.1 = fig)).map Prod.snd

theorem onFig_append (fig : Nat) (l m : List (Nat × Call × Bool)) : onFig fig (l ++ m) = onFig fig l ++ onFig fig m := by
  unfold onFig; rw [List.filter_append, List.map_append]

/-- what the execution of statements adds to the calls that were made -/
def Adds (ctxs : List Ctx) (w w' : World) (own : Nat → List (Call × Bool)) : Prop :=
  ∃ new, w'.done = w.done ++ new ∧ w.next ≤ w'.next ∧ (∀ d ∈ new, d.1 < w'.next) ∧
    ∀ k ctx, ctxs[k]? = some ctx → onFig ctx.fig new = own k

mutual
theorem exec_done (env : Env) : ∀ (s : Stmt) (ctxs : List Ctx) (w : World), (ctxs.map Ctx.fig).Nodup → (∀ c ∈ ctxs, c.fig < w.next) →
    Adds ctxs w (exec env ctxs s w).1 fun k => calls env ctxs.length k s
  | .call k c fails, ctxs, w, hn, hl => by
    rw [exec]
    cases hk : ctxs[k]? with
    | none =>
      refine ⟨[], by simp, Nat.le_refl _, by simp, fun j ctx hj => ?_⟩
      beta_reduce; rw [calls, if_neg (by rintro rfl; rw [hk] at hj; cases hj)]
      rfl
    | some ctx =>
      obtain ⟨d1, d2⟩ := doCall_done ctx c fails w
      dsimp only
      refine ⟨[(ctx.fig, c, fails)], d1, Nat.le_of_eq d2.symm, ?_, ?_⟩
      · intro d hd
        obtain rfl := List.mem_singleton.1 hd
        rw [d2]
        exact hl ctx (List.mem_of_getElem? hk)
      · intro j ctx' hj
        beta_reduce; rw [calls]
        by_cases hkj : k = j
        · subst hkj
          rw [hk] at hj
          obtain rfl := Option.some.inj hj
          rw [if_pos rfl]
          simp [onFig]
        · rw [if_neg hkj]
          have : ctx.fig ≠ ctx'.fig := by
            intro he
            apply hkj
            have h1 : (ctxs.map Ctx.fig)[k]? = some ctx.fig := by rw [List.getElem?_map, hk]; rfl
            have h2 : (ctxs.map Ctx.fig)[j]? = some ctx'.fig := by rw [List.getElem?_map, hj]; rfl
            have hlt : k < (ctxs.map Ctx.fig).length := (List.getElem?_eq_some_iff.1 h1).1
            exact (List.nodup_iff_getElem?_ne_getElem? .. |>.1 hn |> fun hh => by
              by_contra hne
              rcases Nat.lt_or_gt_of_ne hne with h | h
              · exact hh k j h (List.getElem?_eq_some_iff.1 h2).1 (by rw [h1, h2, he])
              · exact hh j k h hlt (by rw [h1, h2, he]))
          simp [onFig, this]
  | .figure, ctxs, w, hn, hl => by
    rw [exec]
    refine ⟨[], by simp [newFigure], by simp [newFigure], by simp, fun j ctx hj => ?_⟩
    beta_reduce; rw [calls]; rfl
  | .raise, ctxs, w, hn, hl => by
    rw [exec]
    refine ⟨[], by simp, Nat.le_refl _, by simp, fun j ctx hj => ?_⟩
    beta_reduce; rw [calls]; rfl
  | .block cfg body, ctxs, w, hn, hl => by
    rw [exec]
    rcases construct_cases env cfg w with ⟨h1, h2⟩ | ⟨h1, w1, h2, h3, h4, h5, h6, _⟩
    · rw [h2]
      refine ⟨[], by simp, Nat.le_refl _, by simp, fun j ctx hj => ?_⟩
      beta_reduce; rw [calls, if_pos h1]; rfl
    · rw [h2]
      dsimp only
      obtain ⟨new, i1, i2, i3, i4⟩ := execAll_done env body (⟨w1.next, cfg.log⟩ :: ctxs) (newFigure w1) (by
        rw [List.map_cons, List.nodup_cons]
        refine ⟨?_, hn⟩
        intro hm
        obtain ⟨c, hc, he⟩ := List.mem_map.1 hm
        have := hl c hc
        dsimp only at he
        omega) (by
        intro c hc
        show c.fig < w1.next + 1
        rcases List.mem_cons.1 hc with rfl | hc
        · exact Nat.lt_succ_self _
        · have := hl c hc
          omega)
      have hdone : (exit env cfg w1.next (execAll env (⟨w1.next, cfg.log⟩ :: ctxs) body (newFigure w1)).1).1.done =
          (execAll env (⟨w1.next, cfg.log⟩ :: ctxs) body (newFigure w1)).1.done ∧
          (exit env cfg w1.next (execAll env (⟨w1.next, cfg.log⟩ :: ctxs) body (newFigure w1)).1).1.next =
          (execAll env (⟨w1.next, cfg.log⟩ :: ctxs) body (newFigure w1)).1.next := by
        rcases exit_cases env cfg w1.next (execAll env (⟨w1.next, cfg.log⟩ :: ctxs) body (newFigure w1)).1 with ⟨e1, e2⟩ | ⟨e1, w2, e2, e3, e4, _⟩
        · rw [e2]; exact ⟨rfl, rfl⟩
        · rw [e2]; exact ⟨e4, e3⟩
      refine ⟨new, ?_, ?_, ?_, ?_⟩
      · rw [hdone.1, i1]
        show w1.done ++ new = _
        rw [h5]
      · rw [hdone.2]
        have : w1.next + 1 ≤ _ := i2
        omega
      · rw [hdone.2]; exact i3
      · intro k ctx hk
        beta_reduce; rw [calls, if_neg (by rw [h1]; simp)]
        exact i4 (k + 1) ctx (by simpa using hk)
theorem execAll_done (env : Env) : ∀ (ss : List Stmt) (ctxs : List Ctx) (w : World), (ctxs.map Ctx.fig).Nodup → (∀ c ∈ ctxs, c.fig < w.next) →
    Adds ctxs w (execAll env ctxs ss w).1 fun k => allCalls env ctxs.length k ss
  | [], ctxs, w, hn, hl => by
    rw [execAll]
    refine ⟨[], by simp, Nat.le_refl _, by simp, fun j ctx hj => ?_⟩
    beta_reduce; rw [allCalls]; rfl
  | s :: ss, ctxs, w, hn, hl => by
    obtain ⟨new1, a1, a2, a3, a4⟩ := exec_done env s ctxs w hn hl
    have hr := exec_raises env s ctxs w
    rw [execAll]
    by_cases h : (exec env ctxs s w).2 = true
    · rw [if_pos h]
      refine ⟨new1, a1, a2, a3, fun k ctx hk => ?_⟩
      beta_reduce; rw [allCalls, if_pos (by rw [← hr]; exact h), List.append_nil]
      exact a4 k ctx hk
    · rw [if_neg h]
      obtain ⟨new2, b1, b2, b3, b4⟩ := execAll_done env ss ctxs (exec env ctxs s w).1 hn (fun c hc => Nat.lt_of_lt_of_le (hl c hc) a2)
      refine ⟨new1 ++ new2, ?_, Nat.le_trans a2 b2, ?_, fun k ctx hk => ?_⟩
      · rw [b1, a1, List.append_assoc]
      · intro d hd
        rcases List.mem_append.1 hd with hd | hd
        · exact Nat.lt_of_lt_of_le (a3 d hd) b2
        · exact b3 d hd
      · beta_reduce; rw [allCalls, if_neg (by rw [← hr]; exact h), onFig_append, a4 k ctx hk, b4 k ctx hk]
end

/-- the states of a process: the calls were made for figures that were created before -/
def Sound (ctxs : List Ctx) (w : World) : Prop :=
  (ctxs.map Ctx.fig).Nodup ∧ (∀ c ∈ ctxs, c.fig < w.next) ∧ ∀ d ∈ w.done, d.1 < w.next

theorem drawn_eq (w : World) (fig : Nat) : drawn w fig = picture (onFig fig w.done) := by
  unfold drawn picture onFig
  induction w.done with
  | nil => rfl
  | cons d l ih =>
    obtain ⟨f, c, b⟩ := d
    by_cases hf : f = fig
    · subst hf
      cases b
      · simp [ih]
      · simp [ih]
    · simp [hf, ih]

/-- C149: whether the body raises an exception or not, the file of a context holds a picture of what the successful calls on its axes have
drawn, up to the exception. -/
theorem C149_saved (env : Env) (ctxs : List Ctx) (cfg : Config) (body : List Stmt) (w : World) (hw : Sound ctxs w) (p : String)
    (hf : cfg.file = some p) (hp : env.canSave p = true) (hl : ∀ l, cfg.log = some l → env.canOpen l = true) :
    (exec env ctxs (.block cfg body) w).1.files p = some (.picture (picture (allCalls env (ctxs.length + 1) 0 body))) := by
  obtain ⟨s1, s2, s3⟩ := hw
  rw [exec]
  rcases construct_cases env cfg w with ⟨h1, h2⟩ | ⟨h1, w1, h2, h3, h4, h5, h6, _⟩
  · exfalso
    cases hc : cfg.log with
    | none => rw [hc] at h1; cases h1
    | some l => rw [hc] at h1; simp [hl l hc] at h1
  · rw [h2]
    dsimp only
    obtain ⟨new, i1, i2, i3, i4⟩ := execAll_done env body (⟨w1.next, cfg.log⟩ :: ctxs) (newFigure w1) (by
      rw [List.map_cons, List.nodup_cons]
      refine ⟨?_, s1⟩
      intro hm
      obtain ⟨c, hc, he⟩ := List.mem_map.1 hm
      have := s2 c hc
      dsimp only at he
      omega) (by
      intro c hc
      show c.fig < w1.next + 1
      rcases List.mem_cons.1 hc with rfl | hc
      · exact Nat.lt_succ_self _
      · have := s2 c hc
        omega)
    rcases exit_cases env cfg w1.next (execAll env (⟨w1.next, cfg.log⟩ :: ctxs) body (newFigure w1)).1 with ⟨e1, e2⟩ | ⟨e1, w2, e2, _, _, _, _, e8⟩
    · rw [hf] at e1; simp [hp] at e1
    · rw [e2]
      dsimp only
      rw [e8, if_pos hf, drawn_eq, i1]
      have h9 : (newFigure w1).done = w.done := h5
      rw [h9, onFig_append]
      have h10 : onFig w1.next w.done = [] := by
        unfold onFig
        rw [List.map_eq_nil_iff, List.filter_eq_nil_iff]
        intro d hd
        have := s3 d hd
        simp; omega
      have h11 : onFig w1.next new = allCalls env (ctxs.length + 1) 0 body := i4 0 ⟨w1.next, cfg.log⟩ rfl
      rw [h10, List.nil_append, h11]

mutual
/-- a file that a statement does not use is changed only by the calls on the contexts that log into it -/
theorem exec_file (env : Env) (p : String) : ∀ (s : Stmt) (ctxs : List Ctx) (w : World), p ∉ uses s →
    ((∀ c ∈ ctxs, c.log ≠ some p) → (exec env ctxs s w).1.files p = w.files p) ∧
    (∀ k es, (∀ j ctx, ctxs[j]? = some ctx → (ctx.log = some p ↔ j = k)) → k < ctxs.length → w.files p = some (.log es) →
      (exec env ctxs s w).1.files p = some (.log (es ++ entries (calls env ctxs.length k s))))
  | .call j c fails, ctxs, w, hu => by
    rw [exec]
    cases hj : ctxs[j]? with
    | none =>
      refine ⟨fun _ => rfl, fun k es hk hlt he => ?_⟩
      have : j ≠ k := by
        rintro rfl
        rw [List.getElem?_eq_none_iff] at hj
        omega
      rw [calls, if_neg this]
      simpa [entries] using he
    | some ctx =>
      dsimp only
      have hne : ctx.log ≠ some p → (doCall ctx c fails w).files p = w.files p := by
        intro h
        unfold doCall writeLog
        cases hl : ctx.log with
        | none => rfl
        | some q =>
          have hq : p ≠ q := by rintro rfl; exact h hl
          dsimp only
          cases logged c
          · rfl
          · simp only [if_true]
            split <;> exact upd_ne _ _ hq
      refine ⟨fun h => hne (h ctx (List.mem_of_getElem? hj)), fun k es hk hlt he => ?_⟩
      rw [calls]
      by_cases hjk : j = k
      · subst hjk
        rw [if_pos rfl]
        have hl := (hk j ctx hj).2 rfl
        unfold doCall writeLog
        rw [hl]
        dsimp only
        have hlog : logged c = (["plot", "legend", "hist", "bar", "scatter"].contains c.kind) := rfl
        unfold entries
        cases hlc : logged c
        · rw [hlc] at hlog
          simp only [Bool.false_eq_true, if_false, List.map_cons, List.map_nil]
          rw [List.filter_cons_of_neg (by rw [← hlog]; simp)]
          simpa using he
        · rw [hlc] at hlog
          simp only [if_true, List.map_cons, List.map_nil]
          rw [List.filter_cons_of_pos (by rw [← hlog])]
          rw [he]
          simp
      · rw [if_neg hjk, hne (fun h => hjk ((hk j ctx hj).1 h)), he]
        simp [entries]
  | .figure, ctxs, w, hu => by
    rw [exec]
    refine ⟨fun _ => rfl, fun k es hk hlt he => ?_⟩
    rw [calls]; simpa [entries, newFigure] using he
  | .raise, ctxs, w, hu => by
    rw [exec]
    refine ⟨fun _ => rfl, fun k es hk hlt he => ?_⟩
    rw [calls]; simpa [entries] using he
  | .block cfg body, ctxs, w, hu => by
    rw [uses, List.mem_append, List.mem_append] at hu
    push Not at hu
    obtain ⟨⟨u1, u2⟩, u3⟩ := hu
    have u1' : cfg.file ≠ some p := by intro h; rw [h] at u1; simp at u1
    have u2' : cfg.log ≠ some p := by intro h; rw [h] at u2; simp at u2
    rw [exec]
    rcases construct_cases env cfg w with ⟨h1, h2⟩ | ⟨h1, w1, h2, h3, h4, h5, h6, h7⟩
    · rw [h2]
      refine ⟨fun _ => rfl, fun k es hk hlt he => ?_⟩
      rw [calls, if_pos h1]
      simpa [entries] using he
    · rw [h2]
      dsimp only
      have h7' : (newFigure w1).files p = w.files p := by
        show w1.files p = _
        rw [h7, if_neg u2']
      have hexit : (exit env cfg w1.next (execAll env (⟨w1.next, cfg.log⟩ :: ctxs) body (newFigure w1)).1).1.files p =
          (execAll env (⟨w1.next, cfg.log⟩ :: ctxs) body (newFigure w1)).1.files p := by
        rcases exit_cases env cfg w1.next (execAll env (⟨w1.next, cfg.log⟩ :: ctxs) body (newFigure w1)).1 with ⟨e1, e2⟩ | ⟨e1, w2, e2, _, _, _, _, e8⟩
        · rw [e2]
        · rw [e2]
          dsimp only
          rw [e8, if_neg u1']
      obtain ⟨i1, i2⟩ := execAll_file env p body (⟨w1.next, cfg.log⟩ :: ctxs) (newFigure w1) u3
      rw [hexit]
      constructor
      · intro hc
        rw [i1 ?_, h7']
        intro c hc'
        rcases List.mem_cons.1 hc' with rfl | hc'
        · exact u2'
        · exact hc c hc'
      · intro k es hk hlt he
        rw [calls, if_neg (by rw [h1]; simp)]
        refine i2 (k + 1) es ?_ (by simpa using hlt) (by rw [h7', he])
        intro j ctx hj
        cases j with
        | zero =>
          simp only [List.getElem?_cons_zero, Option.some.injEq] at hj
          subst hj
          exact ⟨fun h => absurd h u2', fun h => by omega⟩
        | succ j =>
          simp only [List.getElem?_cons_succ] at hj
          rw [hk j ctx hj]
          omega
theorem execAll_file (env : Env) (p : String) : ∀ (ss : List Stmt) (ctxs : List Ctx) (w : World), p ∉ allUses ss →
    ((∀ c ∈ ctxs, c.log ≠ some p) → (execAll env ctxs ss w).1.files p = w.files p) ∧
    (∀ k es, (∀ j ctx, ctxs[j]? = some ctx → (ctx.log = some p ↔ j = k)) → k < ctxs.length → w.files p = some (.log es) →
      (execAll env ctxs ss w).1.files p = some (.log (es ++ entries (allCalls env ctxs.length k ss))))
  | [], ctxs, w, _ => by
    rw [execAll]
    refine ⟨fun _ => rfl, fun k es hk hlt he => ?_⟩
    rw [allCalls]; simpa [entries] using he
  | s :: ss, ctxs, w, hu => by
    rw [allUses, List.mem_append] at hu
    push Not at hu
    obtain ⟨a1, a2⟩ := exec_file env p s ctxs w hu.1
    have hr := exec_raises env s ctxs w
    obtain ⟨b1, b2⟩ := execAll_file env p ss ctxs (exec env ctxs s w).1 hu.2
    rw [execAll]
    by_cases h : (exec env ctxs s w).2 = true
    · rw [if_pos h]
      refine ⟨a1, fun k es hk hlt he => ?_⟩
      rw [allCalls, if_pos (by rw [← hr]; exact h), List.append_nil]
      exact a2 k es hk hlt he
    · rw [if_neg h]
      refine ⟨fun hc => by rw [b1 hc, a1 hc], fun k es hk hlt he => ?_⟩
      rw [b2 k _ hk hlt (a2 k es hk hlt he), allCalls, if_neg (by rw [← hr]; exact h)]
      unfold entries
      rw [List.map_append, List.filter_append, List.append_assoc]
end

/-- C149: the log file of a context, if nothing else writes to it, holds the logged calls on its axes in the order in which they were made,
including the one that failed, whether the body raises an exception or not. A previous content is lost. -/
theorem C149_log (env : Env) (ctxs : List Ctx) (cfg : Config) (body : List Stmt) (w : World) (p : String)
    (hl : cfg.log = some p) (ho : env.canOpen p = true) (hf : cfg.file ≠ some p) (hu : p ∉ allUses body) (hc : ∀ c ∈ ctxs, c.log ≠ some p) :
    (exec env ctxs (.block cfg body) w).1.files p = some (.log (entries (allCalls env (ctxs.length + 1) 0 body))) := by
  rw [exec]
  rcases construct_cases env cfg w with ⟨h1, h2⟩ | ⟨h1, w1, h2, h3, h4, h5, h6, h7⟩
  · rw [hl] at h1; simp [ho] at h1
  · rw [h2]
    dsimp only
    have hexit : (exit env cfg w1.next (execAll env (⟨w1.next, cfg.log⟩ :: ctxs) body (newFigure w1)).1).1.files p =
        (execAll env (⟨w1.next, cfg.log⟩ :: ctxs) body (newFigure w1)).1.files p := by
      rcases exit_cases env cfg w1.next (execAll env (⟨w1.next, cfg.log⟩ :: ctxs) body (newFigure w1)).1 with ⟨e1, e2⟩ | ⟨e1, w2, e2, _, _, _, _, e8⟩
      · rw [e2]
      · rw [e2]
        dsimp only
        rw [e8, if_neg hf]
    rw [hexit]
    have := (execAll_file env p body (⟨w1.next, cfg.log⟩ :: ctxs) (newFigure w1) hu).2 0 [] ?_ (by simp) ?_
    · rw [this]; simp
    · intro j ctx hj
      cases j with
      | zero =>
        simp only [List.getElem?_cons_zero, Option.some.injEq] at hj
        subst hj
        simp [hl]
      | succ j =>
        simp only [List.getElem?_cons_succ] at hj
        have := hc ctx (List.mem_of_getElem? hj)
        simp [this]
    · show w1.files p = _
      rw [h7, if_pos hl]

/-- C149: no other file is touched. -/
theorem C149_other_files (env : Env) (s : Stmt) (w : World) (p : String) (h : p ∉ uses s) : (exec env [] s w).1.files p = w.files p :=
  (exec_file env p s [] w h).1 (by simp)

/-! ### examples -/

/-- everything works, nothing is shown -/
def exEnv : Env := ⟨fun _ => true, fun p => decide (p ≠ "missing/x.pdf"), false⟩

def exWorld : World := ⟨[7], 8, fun _ => none, [], []⟩

def exBody : List Stmt :=
  [.call 0 ⟨"plot", "([1, 2],),{}"⟩ false, .call 0 ⟨"set_xlabel", "('x',),{}"⟩ false,
   .block ⟨false, some "b.pdf", some "b.log"⟩ [.call 0 ⟨"bar", "([3],),{}"⟩ false, .call 1 ⟨"hist", "([4],),{}"⟩ false, .call 0 ⟨"scatter", "('?',),{}"⟩ true],
   .call 0 ⟨"legend", "(),{}"⟩ false]

/-- the exception in the inner block: both figures are saved and closed, the call that was not made is neither drawn nor logged -/
example : (exec exEnv [] (.block ⟨false, some "a.pdf", some "a.log"⟩ exBody) exWorld).2 = true ∧
    (exec exEnv [] (.block ⟨false, some "a.pdf", some "a.log"⟩ exBody) exWorld).1.opened = [7] ∧
    (exec exEnv [] (.block ⟨false, some "a.pdf", some "a.log"⟩ exBody) exWorld).1.logs = [] ∧
    (["a.pdf", "a.log", "b.pdf", "b.log", "c"].map (exec exEnv [] (.block ⟨false, some "a.pdf", some "a.log"⟩ exBody) exWorld).1.files) =
      [some (.picture [⟨"plot", "([1, 2],),{}"⟩, ⟨"set_xlabel", "('x',),{}"⟩, ⟨"hist", "([4],),{}"⟩]),
       some (.log [⟨"plot", "([1, 2],),{}"⟩, ⟨"hist", "([4],),{}"⟩]),
       some (.picture [⟨"bar", "([3],),{}"⟩]), some (.log [⟨"bar", "([3],),{}"⟩, ⟨"scatter", "('?',),{}"⟩]), none] := by decide +kernel

example : Sound [] exWorld ∧ AllQuiet exBody = true ∧ AllSavable exEnv exBody = true ∧ "a.log" ∉ allUses exBody := by
  refine ⟨⟨by simp, by simp, by simp [exWorld]⟩, by decide +kernel, by decide +kernel, by decide +kernel⟩

example : (exec exEnv [] (.block ⟨false, some "missing/x.pdf", none⟩ [.figure]) exWorld).1.opened = [7, 8, 9] := by decide +kernel

end Prolothar.PlotContext
