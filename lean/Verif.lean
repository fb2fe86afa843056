import Verif.Core.Props
import Verif.Net.OpsProps
import Verif.Math.Props
import Verif.Hash.Props
import Verif.Adapt.Props
import Verif.Buffer.Props
import Verif.Chan.Props
import Verif.Shared.Props
import Verif.Shared.Ids
import Verif.Delay.LinProps
import Verif.Delay.FeedbackProps
import Verif.Delay.Hadamard
import Verif.Filter.Energy
import Verif.Filter.Smooth
import Verif.Filter.Halfway
import Verif.Filter.Fir
import Verif.Filter.Stable
import Verif.Route.Props
import Verif.Dyn.Props
import Verif.Net.BackendFade
import Verif.Core.ResetLeaf
import Verif.Setting.Props
import Verif.Seq.Backend
import Verif.Slot.Props
import Verif.Slot.Exact
import Verif.Noise.Props
import Verif.Noise.Reset
import Verif.Pan.Props
import Verif.Osc.Props
import Verif.Osc.Reset
import Verif.Osc.ChaosProps
import Verif.Env.Adsr
import Verif.Wave.Player
import Verif.Wave.Wav
import Verif.Resample.Props
import Verif.Wavetable.Make
import Verif.Resynth.Props
import Verif.Shape.Props
import Verif.Filter.NonlinearProps
import Verif.Sys.Props
import Verif.Filter.RezProps
import Verif.Filter.SvfInProps
import Verif.Reverb.Props
import Verif.Reverb.Loop
import Verif.Osc.PluckProps
import Verif.Wavetable.SynthProps
import Verif.Gran.Sched
import Verif.Effect.Model
import Verif.Effect.Gain
import Verif.Effect.Props
import Verif.Effect.Mod
import Verif.Effect.ModProps
import Verif.Net.FadeExact
import Verif.Math.Lipschitz
import Verif.Env.Reset
import Verif.Effect.Slow
import Verif.Effect.Reverb2
import Verif.Effect.Reverb2Lemmas
import Verif.Effect.Reverb2Line
import Verif.Effect.Reverb2Props
import Verif.Net.Rate
import Verif.Net.RateProps
import Verif.Seq.Rate
import Verif.Slot.Rate
import Verif.Math.Music
import Verif.Math.MusicLemmas
import Verif.Math.MusicProps
import Verif.Math.NoiseProps
import Verif.Param.Model
import Verif.Param.Props
import Verif.Core.Expr
import Verif.Core.ExprProps
import Verif.Phase.Model
import Verif.Phase.Props
import Verif.Float.Round
import Verif.Float.Model
import Verif.Float.Lemmas
import Verif.Float.Props
import Verif.Wave.Read
import Verif.Wave.ReadProps
import Verif.Float.Avg
import Verif.Float.AvgProps
import Verif.Core.Equiv
import Verif.Core.EquivProps
import Verif.Filter.Equalizer
import Verif.Filter.EqualizerProps
import Verif.Filter.BeyondProps
import Verif.Sound.Model
import Verif.Sound.Props
import Verif.Sound.Gen
import Verif.Sound.GenProps
import Verif.Resample.Pass
import Verif.Net.Route
import Verif.Net.RouteProps
import Verif.Route.Live
import Verif.Route.LiveProps
import Verif.Rate.Model
import Verif.Rate.Props
import Verif.Wavetable.Shapes
import Verif.Wavetable.Fourier
import Verif.Wavetable.ShapesProps
import Verif.Resynth.Window
import Verif.Resynth.WindowProps
import Verif.Filter.Resonator
import Verif.Filter.Kind
import Verif.Filter.KindProps
import Verif.Dyn.Ceiling
import Verif.Dyn.CeilingProps
import Verif.Effect.TimeProps
import Verif.Mem.Props
import Verif.Mem.Seq
import Verif.Mail.SlotProps
import Verif.Mail.SeqProps
import Verif.Mail.NetProps
import Verif.Mail.Demo
import Verif.Net.Live
import Verif.Net.LiveProps
import Verif.Net.FadeIn
import Verif.Net.FadeInProps
import Verif.Net.StayProps
import Verif.Net.ResetProps
import Verif.Rate.KeepProps
import Verif.Route.Complete
import Verif.Route.Display
import Verif.Route.DisplayProps
import Verif.Net.RouteComplete
import Verif.Net.Combine
import Verif.Net.Mixed
import Verif.Net.Full
import Verif.Env.Live
import Verif.Adapt.Live
import Verif.Rate.Limiter
import Verif.Gran.Sound
import Verif.Filter.SvfReset
import Verif.Seq.RateDrop
import Verif.Rate.SeqDrop
import Verif.Gran.Hash
