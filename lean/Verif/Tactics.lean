import Mathlib.Tactic.Common
import Mathlib.Tactic.Tauto
import Mathlib.Tactic.ByContra
import Mathlib.Tactic.Use
import Mathlib.Data.List.Forall2
import Mathlib.Data.List.Nodup
/-! Common imports: tactics and list lemmas. -/
