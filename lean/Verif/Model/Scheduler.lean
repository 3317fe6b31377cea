import Verif.Model.Parallel
import Mathlib.Algebra.Order.Field.Rat
/-
  Sample schedulers: src/scheduler.cpp. Counters are natural numbers (the code uses long long; overflow not modelled).
  Progress reporting (progress::ScopedReport, update) is not part of this model. The process callback does not throw.
-/
namespace LM.Scheduler
open LM.Parallel

/-- The world outside the scheduler: the thread team, the interleaving of the k-th parallel loop,
    and the milliseconds elapsed (already truncated by duration_cast) when the k-th loop is over (scheduler.cpp:37-187). -/
structure Env where
  threads : Nat
  interval : Nat
  sched : Nat → List Nat
  elapsedMs : Nat → Nat

/-- `parallel::foreach(n, f)` as the k-th loop of the run, with a callback that does not throw (scheduler.cpp:37-187). -/
def loop (env : Env) (k : Nat) (count : Nat → Nat) (n : Nat) : Sys :=
  run ⟨n, env.threads, env.interval, fun _ => false⟩ (init count) (env.sched k)

/-- Scheduler_SPP_Sample::run, src/scheduler.cpp:37-49. Result: return value and the (pixel, sample) arguments of `process` in call order. -/
def sppSample (env : Env) (count : Nat → Nat) (numPixels spp : Nat) : Nat × List (Nat × Nat) :=
  (spp, (loop env 0 count (numPixels * spp)).calls.map (fun index => (index / spp, index % spp)))

/-- Scheduler_SPI_Sample::run, src/scheduler.cpp:128-137. -/
def spiSample (env : Env) (count : Nat → Nat) (numSamples : Nat) : Nat × List (Nat × Nat) :=
  (numSamples, (loop env 0 count numSamples).calls.map (fun index => (0, index)))

/-- Scheduler_SPP_Time::run, src/scheduler.cpp:77-106: the `while (true)` loop, with fuel (none: still running). -/
def sppTime (env : Env) (renderTime : ℚ) (numPixels : Nat) : (fuel k : Nat) → (count : Nat → Nat) → (spp : Nat) → List (Nat × Nat) → Option (Nat × List (Nat × Nat))
  | 0, _, _, _, _ => none
  | fuel + 1, k, count, spp, acc =>
    let s := loop env k count numPixels
    let acc := acc ++ s.calls.map (fun index => (index, spp))
    let spp := spp + 1
    if (env.elapsedMs k : ℚ) / 1000 > renderTime then some (spp, acc)
    else sppTime env renderTime numPixels fuel (k + 1) s.count spp acc

/-- Scheduler_SPI_Time::run, src/scheduler.cpp:161-187. -/
def spiTime (env : Env) (renderTime : ℚ) (samplesPerIter : Nat) : (fuel k : Nat) → (count : Nat → Nat) → (processed : Nat) → List (Nat × Nat) → Option (Nat × List (Nat × Nat))
  | 0, _, _, _, _ => none
  | fuel + 1, k, count, processed, acc =>
    let s := loop env k count samplesPerIter
    let acc := acc ++ s.calls.map (fun index => (0, processed + index))
    let processed := processed + samplesPerIter
    if (env.elapsedMs k : ℚ) / 1000 > renderTime then some (processed, acc)
    else spiTime env renderTime samplesPerIter fuel (k + 1) s.count processed acc

end LM.Scheduler
