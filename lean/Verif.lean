import Verif.Properties.Spans
import Verif.Spec.Levels
import Verif.Proofs.Levels
import Verif.Properties.Chart
import Verif.Properties.Order
import Verif.Properties.Termination
import Verif.Properties.Agreement
import Verif.Spec.Features
import Verif.Properties.Features
import Verif.Properties.Findall
import Verif.Properties.Match
import Verif.Properties.Predicates
import Verif.Properties.Pipelines
import Verif.Properties.Tokenizers
import Verif.Properties.Interpretation
import Verif.Properties.Cache
import Verif.Properties.Dot
import Verif.Properties.Determinism
import Verif.Proofs.BnfPass
import Verif.Proofs.Walk
import Verif.Properties.Rules
import Verif.Properties.Compile
import Verif.Properties.Activation
import Verif.Proofs.FrameWalk
import Verif.Proofs.FrameCompile
import Verif.Model.Leftover
import Verif.Proofs.HeapKeeps
import Verif.Proofs.Leftover
import Verif.Proofs.Filed
import Verif.Proofs.TotalGrow
import Verif.Proofs.TotalYoung
import Verif.Proofs.TotalDeep
import Verif.Proofs.TotalEnds
import Verif.Properties.Addresses
import Verif.Proofs.Congruence
import Verif.Spec.History
import Verif.Properties.Reuse
import Verif.Spec.Renaming
import Verif.Proofs.Renaming
import Verif.Proofs.Twin
import Verif.Proofs.TwinCompile
import Verif.Proofs.Mirror
import Verif.Spec.Locality
import Verif.Proofs.RenamedFacts
import Verif.Properties.Locality
import Verif.Properties.Rebuild
import Verif.Properties.Failures
import Verif.Proofs.BnfTrack
import Verif.Proofs.BnfLabels
import Verif.Proofs.WrapRoot
import Verif.Proofs.Cut
import Verif.Proofs.LabelWords
import Verif.Spec.Labels
import Verif.Proofs.Reading
import Verif.Properties.Labels
import Verif.Properties.EmptyNames
import Verif.Properties.Tags
import Verif.Spec.Choices
import Verif.Proofs.PickWords
import Verif.Proofs.PickTransform
import Verif.Proofs.PickCopying
import Verif.Proofs.PickPasses
import Verif.Proofs.PickExtended
import Verif.Proofs.PickSquash
import Verif.Proofs.PickSettle
import Verif.Proofs.PickNormalize
import Verif.Proofs.PickBnf
import Verif.Proofs.PickCompile
import Verif.Proofs.PickActivation
import Verif.Proofs.PickGrammar
import Verif.Proofs.PickProgram
import Verif.Properties.Choices
import Verif.Properties.Star
import Verif.Proofs.TotalPasses
import Verif.Proofs.TotalFirm
import Verif.Spec.Buildable
import Verif.Properties.Builds
import Verif.Spec.Outline
import Verif.Properties.Outlines
import Verif.Spec.Facts
import Verif.Proofs.Bare
import Verif.Proofs.Evaluate
import Verif.Properties.Facts
import Verif.Model.Api
import Verif.Spec.Api
import Verif.Proofs.Api
import Verif.Proofs.ApiWords
import Verif.Proofs.ApiRuns
import Verif.Proofs.ApiFaults
import Verif.Properties.Api
import Verif.Model.Listing
import Verif.Spec.Listing
import Verif.Proofs.Titles
import Verif.Proofs.Listing
import Verif.Properties.Listing
import Verif.Spec.Thin
import Verif.Spec.EndToEnd
import Verif.Proofs.Thin
import Verif.Proofs.ThinSquash
import Verif.Proofs.ThinExtended
import Verif.Proofs.ThinReplace
import Verif.Proofs.ThinEnd
import Verif.Proofs.ThinChart
import Verif.Properties.EndToEnd
import Verif.Properties.Endless
import Verif.Model.RuleDot
import Verif.Spec.RuleDot
import Verif.Proofs.Picture
import Verif.Proofs.RulePicture
import Verif.Proofs.TreePicture
import Verif.Properties.Pictures
import Verif.Model.Equal
import Verif.Spec.Equal
import Verif.Properties.Equal
import Verif.Proofs.Tint
import Verif.Proofs.TintPasses
import Verif.Proofs.TintCompile
import Verif.Proofs.TintEnd
import Verif.Proofs.TintGrammar
import Verif.Spec.Optional
import Verif.Proofs.TintSource
import Verif.Properties.Optionals
import Verif.Model.Text
import Verif.Spec.Text
import Verif.Properties.Text
import Verif.Spec.Separate
import Verif.Proofs.TokenLocal
import Verif.Properties.Separate
import Verif.Properties.Surroundings
import Verif.Spec.Phrase
import Verif.Properties.Phrase
import Verif.Spec.Compose
import Verif.Properties.Compose
import Verif.Model.Raise
import Verif.Spec.Raise
import Verif.Proofs.Raise
import Verif.Properties.Raise
import Verif.Model.Compare
import Verif.Spec.Compare
import Verif.Properties.Compare
import Verif.Spec.Pair
import Verif.Proofs.Couple
import Verif.Proofs.CoupleChart
import Verif.Properties.Pair
import Verif.Spec.Exact
import Verif.Proofs.Exact
import Verif.Properties.Exact
import Verif.Spec.Slots
import Verif.Proofs.SlotFold
import Verif.Properties.Slots
import Verif.Spec.Filling
import Verif.Properties.Filling
import Verif.Spec.Nested
import Verif.Proofs.NestFold
import Verif.Properties.Nested
import Verif.Properties.Related
